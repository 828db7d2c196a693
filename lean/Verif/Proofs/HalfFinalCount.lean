import Verif.Proofs.HalfFinalRun
import Mathlib.Order.Bounds.Defs

/-!
# Taking the earliest end each time gives the greatest number of occurrences
-/

namespace Pire
namespace Spec

theorem exists_first {L : Language Nat} {u : List Nat} (h : u ∈ L) : ∃ m, m <+: u ∧ m ∈ firsts L := by
  induction hn : u.length using Nat.strong_induction_on generalizing u with
  | _ n ih =>
    subst hn
    by_cases hx : ∃ v, v <+: u ∧ v ∈ L ∧ v ≠ u
    · obtain ⟨v, hv, hvL, hne⟩ := hx
      have hlt : v.length < u.length := by
        rcases Nat.lt_or_ge v.length u.length with h1 | h1
        · exact h1
        · exact absurd (hv.eq_of_length_le h1) hne
      obtain ⟨m, hm, hmf⟩ := ih _ hlt hvL rfl
      exact ⟨m, hm.trans hv, hmf⟩
    · refine ⟨u, List.prefix_rfl, h, fun v hv hvL => ?_⟩
      by_contra hne
      exact hx ⟨v, hv, hvL, hne⟩

theorem firsts_unique {L : Language Nat} {u v w : List Nat} (hu : u ∈ firsts L) (hv : v ∈ firsts L) (h1 : u <+: w) (h2 : v <+: w) : u = v := by
  rcases List.prefix_or_prefix_of_prefix h1 h2 with h | h
  · exact hv.2 u h hu.1
  · exact (hu.2 v h hv.1).symm

/-- One or more words of `firsts L`, one after another. -/
def chain (L : Language Nat) : Language Nat := firsts L * KStar.kstar (firsts L)

theorem mem_chain {L : Language Nat} {w : List Nat} : w ∈ chain L ↔ ∃ m ∈ firsts L, ∃ v, w = m ++ v ∧ (v = [] ∨ v ∈ chain L) := by
  constructor
  · rintro ⟨m, hm, v, hv, rfl⟩
    refine ⟨m, hm, v, rfl, ?_⟩
    obtain ⟨S, rfl, hS⟩ := Language.mem_kstar.1 hv
    cases S with
    | nil => exact .inl rfl
    | cons y S => exact .inr ⟨y, hS y (by simp), S.flatten, Language.mem_kstar.2 ⟨S, rfl, fun z hz => hS z (by simp [hz])⟩, rfl⟩
  · rintro ⟨m, hm, v, rfl, rfl | ⟨y, hy, z, hz, rfl⟩⟩
    · exact ⟨m, hm, [], Language.nil_mem_kstar _, rfl⟩
    · refine ⟨m, hm, _, ?_, rfl⟩
      obtain ⟨S, rfl, hS⟩ := Language.mem_kstar.1 hz
      exact Language.mem_kstar.2 ⟨y :: S, rfl, fun x hx => by
        rcases List.mem_cons.1 hx with rfl | hx
        · exact hy
        · exact hS x hx⟩

theorem positions_eq_zero {L : Language Nat} {w : List Nat} (h : ∀ u, u <+: w → u ∉ L) : positions L w = 0 := by
  classical
  unfold positions
  rw [List.length_eq_zero_iff, List.filter_eq_nil_iff]
  intro u hu
  rw [decide_eq_true_eq]
  exact h u ((List.mem_inits _ _).1 hu)

/-- The words that complete `u` to a word of `L`. -/
def after (u : List Nat) (L : Language Nat) : Language Nat := {x | u ++ x ∈ L}

theorem mem_after {u : List Nat} {L : Language Nat} {x : List Nat} : x ∈ after u L ↔ u ++ x ∈ L := Iff.rfl

theorem positions_append (L : Language Nat) (u v : List Nat) (h : ∀ x, x <+: u → x ≠ u → x ∉ L) :
    positions L (u ++ v) = positions (after u L) v := by
  classical
  induction v using List.reverseRecOn with
  | nil =>
    rw [List.append_nil]
    rcases List.eq_nil_or_concat u with rfl | ⟨u', c, rfl⟩
    · rfl
    · simp only [List.concat_eq_append] at h ⊢
      rw [positions_snoc, positions_nil, positions_eq_zero, Nat.zero_add]
      · have : [] ∈ after (u' ++ [c]) L ↔ u' ++ [c] ∈ L := by rw [mem_after, List.append_nil]
        by_cases h' : u' ++ [c] ∈ L
        · rw [if_pos h', if_pos (this.2 h')]
        · rw [if_neg h', if_neg (fun x => h' (this.1 x))]
      · intro x hx
        refine h x (hx.trans (List.prefix_append _ _)) ?_
        rintro rfl
        have := hx.length_le
        simp at this
  | append_singleton v c ih =>
    rw [← List.append_assoc, positions_snoc, positions_snoc, ih]
    have : v ++ [c] ∈ after u L ↔ u ++ v ++ [c] ∈ L := by rw [mem_after, List.append_assoc]
    by_cases h' : u ++ v ++ [c] ∈ L
    · rw [if_pos h', if_pos (this.2 h')]
    · rw [if_neg h', if_neg (fun x => h' (this.1 x))]

theorem occurrences_zero (L : Language Nat) (w : List Nat) : Occurrences L w 0 := ⟨[], rfl, by simp, w, rfl⟩

theorem occurrences_one {L : Language Nat} {w : List Nat} {k : Nat} (h : Occurrences L w (k + 1)) :
    ∃ u v, w = u ++ v ∧ u ∈ ends L ∧ ∀ y, Occurrences L (y ++ v) k := by
  obtain ⟨ps, hl, hp, rest, rfl⟩ := h
  match ps, hl with
  | p :: ps, hl =>
    refine ⟨p.1 ++ p.2, (ps.flatMap fun p => p.1 ++ p.2) ++ rest, by simp, ⟨p.1, p.2, hp p (by simp), rfl⟩, fun y => ?_⟩
    match ps, hl with
    | [], hl => simp at hl; subst hl; exact occurrences_zero ..
    | p' :: ps, hl =>
      refine ⟨(y ++ p'.1, p'.2) :: ps, by simpa using hl, ?_, rest, by simp⟩
      intro x hx
      rcases List.mem_cons.1 hx with rfl | hx
      · exact hp p' (by simp)
      · exact hp x (by simp [hx])

theorem occurrences_succ {L : Language Nat} {u v : List Nat} {k : Nat} (hu : u ∈ ends L) (h : Occurrences L v k) : Occurrences L (u ++ v) (k + 1) := by
  obtain ⟨x, l, hl, rfl⟩ := hu
  obtain ⟨ps, hk, hp, rest, rfl⟩ := h
  refine ⟨(x, l) :: ps, by simp [hk], ?_, rest, by simp⟩
  intro p hp'
  rcases List.mem_cons.1 hp' with rfl | hp'
  · exact hl
  · exact hp p hp'

/-- Cutting at the earliest end of an occurrence, again and again, counts the greatest number of occurrences that do not overlap. -/
theorem greedy_greatest {L : Language Nat} (hne : [] ∉ L) (w : List Nat) : IsGreatest {k | Occurrences L w k} (positions (chain (ends L)) w) := by
  classical
  have hnil : [] ∉ ends L := by
    rintro ⟨x, l, hl, h⟩
    have := (List.append_eq_nil_iff.1 h.symm).2
    subst this
    exact hne hl
  induction hn : w.length using Nat.strong_induction_on generalizing w with
  | _ n ih =>
    subst hn
    by_cases hex : ∃ u, u <+: w ∧ u ∈ ends L
    · obtain ⟨u, hu, huL⟩ := hex
      obtain ⟨m, hm, hmf⟩ := exists_first huL
      obtain ⟨v, rfl⟩ := hm.trans hu
      have hmne : m ≠ [] := by rintro rfl; exact hnil hmf.1
      have hlt : v.length < (m ++ v).length := by
        have := List.length_pos_iff.2 hmne
        rw [List.length_append]; omega
      obtain ⟨i1, i2⟩ := ih _ hlt v rfl
      have hpos : positions (chain (ends L)) (m ++ v) = positions (chain (ends L)) v + 1 := by
        rw [positions_append]
        · have hin : ∀ x, x <+: v → (m ++ x ∈ chain (ends L) ↔ x = [] ∨ x ∈ chain (ends L)) := by
            intro x hx
            rw [mem_chain]
            constructor
            · rintro ⟨m', hm', v', he, h⟩
              have : m' = m := firsts_unique hm' hmf (w := m ++ x) ⟨v', he.symm⟩ (List.prefix_append _ _)
              subst this
              rw [List.append_cancel_left_eq] at he
              rw [he]; exact h
            · intro h; exact ⟨m, hmf, x, rfl, h⟩
          have hn0 : [] ∉ chain (ends L) := by
            intro h
            obtain ⟨m', hm', v', he, -⟩ := mem_chain.1 h
            have := (List.append_eq_nil_iff.1 he.symm).1
            subst this
            exact hnil hm'.1
          clear ih i1 i2 hlt hu
          induction v using List.reverseRecOn with
          | nil =>
            have h1 : [] ∈ after m (chain (ends L)) := (hin [] List.prefix_rfl).2 (.inl rfl)
            rw [positions_nil, positions_nil, if_pos h1, if_neg hn0]
          | append_singleton v c ih =>
            rw [positions_snoc, positions_snoc, ih (fun x hx => hin x (hx.trans (List.prefix_append _ _)))]
            have : (v ++ [c] ∈ after m (chain (ends L))) ↔ v ++ [c] ∈ chain (ends L) := by
              have := hin (v ++ [c]) List.prefix_rfl
              rw [mem_after, this]
              simp
            by_cases h : v ++ [c] ∈ chain (ends L)
            · rw [if_pos (this.2 h), if_pos h]
            · rw [if_neg (fun x => h (this.1 x)), if_neg h]
        · intro x hx hxm hxc
          obtain ⟨m', hm', v', rfl, -⟩ := mem_chain.1 hxc
          have h1 : m' <+: m := (List.prefix_append _ _).trans hx
          have h2 := firsts_unique hm' hmf h1 List.prefix_rfl
          subst h2
          have := hx.length_le
          rw [List.length_append] at this
          have : v' = [] := List.length_eq_zero_iff.1 (by omega)
          subst this
          exact hxm (List.append_nil _)
      rw [hpos]
      refine ⟨occurrences_succ hmf.1 i1, ?_⟩
      intro k hk
      cases k with
      | zero => omega
      | succ k =>
        obtain ⟨u', v', he, hu', hall⟩ := occurrences_one hk
        have hmu : m <+: u' := by
          rcases List.prefix_or_prefix_of_prefix (show m <+: m ++ v from List.prefix_append _ _) (show u' <+: m ++ v from ⟨v', he.symm⟩) with h | h
          · exact h
          · rw [hmf.2 u' h hu']
        obtain ⟨y, rfl⟩ := hmu
        rw [List.append_assoc, List.append_cancel_left_eq] at he
        have := i2 (show Occurrences L v k by rw [he]; exact hall y)
        omega
    · have h0 : positions (chain (ends L)) w = 0 := by
        apply positions_eq_zero
        intro u hu hc
        obtain ⟨m', hm', v', rfl, -⟩ := mem_chain.1 hc
        exact hex ⟨m', (List.prefix_append _ _).trans hu, hm'.1⟩
      rw [h0]
      refine ⟨occurrences_zero .., ?_⟩
      intro k hk
      cases k with
      | zero => exact le_rfl
      | succ k =>
        obtain ⟨u', v', he, hu', -⟩ := occurrences_one hk
        exact absurd ⟨u', ⟨v', he.symm⟩, hu'⟩ hex

/-- A language with the empty word: only the empty prefix is counted. -/
theorem positions_chain_nil {L : Language Nat} (h : [] ∈ L) (w : List Nat) : positions (chain (ends L)) w = 1 := by
  classical
  have hE : [] ∈ ends L := ⟨[], [], h, rfl⟩
  have hf : ∀ m, m ∈ firsts (ends L) ↔ m = [] := fun m => by
    constructor
    · intro hm; exact (hm.2 [] List.nil_prefix hE).symm
    · rintro rfl; exact ⟨hE, fun u hu _ => List.prefix_nil.1 hu⟩
  have hc : ∀ x, x ∈ chain (ends L) ↔ x = [] := by
    intro x
    constructor
    · rintro ⟨m, hm, v, hv, rfl⟩
      obtain ⟨S, rfl, hS⟩ := Language.mem_kstar.1 hv
      show m ++ S.flatten = []
      rw [(hf m).1 hm, List.nil_append, List.flatten_eq_nil_iff]
      exact fun y hy => (hf y).1 (hS y hy)
    · rintro rfl
      exact mem_chain.2 ⟨[], (hf []).2 rfl, [], rfl, .inl rfl⟩
  induction w using List.reverseRecOn with
  | nil => rw [positions_nil, if_pos ((hc []).2 rfl)]
  | append_singleton w c ih => rw [positions_snoc, ih, if_neg (by rw [hc]; simp)]

/-! ### Words -/

theorem IsWord.of_prefix {u w : List Nat} (hw : IsWord w) (h : u <+: w) : IsWord u := fun c hc => hw c (h.subset hc)

theorem positions_congr {L L' : Language Nat} {w : List Nat} (h : ∀ u, u <+: w → (u ∈ L ↔ u ∈ L')) : positions L w = positions L' w := by
  classical
  unfold positions
  congr 1
  apply List.filter_congr
  intro u hu
  have := h u ((List.mem_inits _ _).1 hu)
  by_cases h' : u ∈ L
  · simp [h', this.1 h']
  · simp [h', show u ∉ L' from fun x => h' (this.2 x)]

theorem firsts_congr {L L' : Language Nat} {w : List Nat} (h : ∀ u, u <+: w → (u ∈ L ↔ u ∈ L')) : w ∈ firsts L ↔ w ∈ firsts L' := by
  constructor
  · rintro ⟨h1, h2⟩; exact ⟨(h w List.prefix_rfl).1 h1, fun u hu hL => h2 u hu ((h u hu).2 hL)⟩
  · rintro ⟨h1, h2⟩; exact ⟨(h w List.prefix_rfl).2 h1, fun u hu hL => h2 u hu ((h u hu).1 hL)⟩

theorem chain_congr {L L' : Language Nat} (h : ∀ u, IsWord u → (u ∈ L ↔ u ∈ L')) {w : List Nat} (hw : IsWord w) : w ∈ chain L ↔ w ∈ chain L' := by
  have key : ∀ {L L' : Language Nat}, (∀ u, IsWord u → (u ∈ L ↔ u ∈ L')) → w ∈ chain L → w ∈ chain L' := by
    intro L L' h
    rintro ⟨m, hm, v, hv, rfl⟩
    have hall : ∀ y, IsWord y → y ∈ firsts L → y ∈ firsts L' := fun y hy => (firsts_congr fun u hu => h u (hy.of_prefix hu)).1
    refine ⟨m, hall m (fun c hc => hw c (List.mem_append_left _ hc)) hm, v, ?_, rfl⟩
    obtain ⟨S, rfl, hS⟩ := Language.mem_kstar.1 hv
    refine Language.mem_kstar.2 ⟨S, rfl, fun y hy => hall y (fun c hc => hw c (List.mem_append_right _ ?_)) (hS y hy)⟩
    exact List.mem_flatten.2 ⟨y, hy, hc⟩
  exact ⟨key h, key fun u hu => (h u hu).symm⟩

theorem mem_ends_iff {L : Language Nat} {w : List Nat} (hw : IsWord w) : w ∈ allWords * L ↔ w ∈ ends L := by
  rw [Language.mem_mul]
  constructor
  · rintro ⟨x, -, l, hl, rfl⟩; exact ⟨x, l, hl, rfl⟩
  · rintro ⟨x, l, hl, rfl⟩; exact ⟨x, fun c hc => hw c (List.mem_append_left _ hc), l, hl, rfl⟩

theorem positions_chain {L : Language Nat} {w : List Nat} (hw : IsWord w) : positions (chain (allWords * L)) w = positions (chain (ends L)) w :=
  positions_congr fun _ hu => chain_congr (fun _ hx => mem_ends_iff hx) (hw.of_prefix hu)

end Spec
end Pire
