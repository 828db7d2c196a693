import Verif.Proofs.DetTags
import Verif.Proofs.Pattern
import Verif.Model.CountCtor
import Verif.Spec.Counting

/-!
# The constructor of `CountingScanner`: the automaton before the second `Determine`
-/

namespace Pire

open Spec

namespace Fsm

/-- Union when only the right operand is an alternative. -/
theorem union_altRight {f rhs : Fsm} (h : f.WF) (hc : f.Coh) (h2 : rhs.WF) (hc2 : rhs.Coh) (a1 : f.isAlt = false) (a2 : rhs.isAlt = true) :
    (f.union rhs).initial = f.size + rhs.initial ∧ (f.union rhs).size = f.size + rhs.size ∧
    (∀ x, x ∈ (f.union rhs).finals ↔ x ∈ f.finals ∨ (f.size ≤ x ∧ x - f.size ∈ rhs.finals)) ∧
    (∀ q c p, (f.union rhs).Edge q c p ↔ f.Edge q c p ∨ (f.size ≤ q ∧ f.size ≤ p ∧ rhs.Edge (q - f.size) c (p - f.size)) ∨
      (q = f.size + rhs.initial ∧ p = f.initial ∧ c = 257)) ∧
    (f.union rhs).tags = (f.import_ rhs).tags := by
  obtain ⟨bw, braw, bsize, binit, bfin, bE⟩ := unionBase_spec h hc h2 hc2
  have hu : f.union rhs = { (unionBase f rhs).connect (f.size + rhs.initial) (unionBase f rhs).initial Epsilon with
      initial := rhs.initial + f.size, determined := false, isAlt := true } := by
    unfold union
    simp only [a1, a2, Bool.not_true, Bool.not_false, Bool.and_self, Bool.and_false,
      Bool.false_eq_true, if_false, if_true]
    rfl
  rw [hu]
  refine ⟨Nat.add_comm .., bsize, bfin, ?_, rfl⟩
  intro q c p
  rw [show Edge { (unionBase f rhs).connect (f.size + rhs.initial) (unionBase f rhs).initial Epsilon with
      initial := rhs.initial + f.size, determined := false, isAlt := true } =
    ((unionBase f rhs).connect (f.size + rhs.initial) (unionBase f rhs).initial Epsilon).Edge from edge_congr rfl rfl,
    edge_connect, key_raw braw, binit, bE, or_assoc]

/-- Edges never go down and letters go up; the initial state is at the bottom, and there is one level above it. -/
def Ranked (f : Fsm) : Prop := ∃ r : Nat → Nat, r f.initial = 0 ∧ ∀ q c p, f.Edge q c p → r q ≤ r p ∧ (c ≠ 257 → r q < r p) ∧ r p ≤ 1

theorem Ranked.union {f rhs : Fsm} (hg : f.Good) (hg2 : rhs.Good) (a2 : rhs.isAlt = false) (hr : f.Ranked) (hr2 : rhs.Ranked) :
    (f.union rhs).Ranked := by
  obtain ⟨r, r0, r1⟩ := hr
  obtain ⟨s, s0, s1⟩ := hr2
  obtain ⟨bw, braw, bsize, binit, bfin, bE⟩ := unionBase_spec hg.wf hg.coh hg2.wf hg2.coh
  have hlt := hg.wf.init_lt
  have hlt2 := hg2.wf.init_lt
  have key : ∀ q c p, (unionBase f rhs).Edge q c p → (q < f.size + rhs.size ∧ p < f.size + rhs.size) ∧
      ((if q < f.size then r q else s (q - f.size)) ≤ (if p < f.size then r p else s (p - f.size)) ∧
      (c ≠ 257 → (if q < f.size then r q else s (q - f.size)) < (if p < f.size then r p else s (p - f.size))) ∧
      (if p < f.size then r p else s (p - f.size)) ≤ 1) := by
    intro q c p e
    rcases (bE _ _ _).1 e with e | ⟨h1, h2, e⟩
    · have := hg.wf.edge_lt e
      rw [if_pos this.1, if_pos this.2.2]
      exact ⟨⟨by omega, by omega⟩, r1 _ _ _ e⟩
    · have := hg2.wf.edge_lt e
      rw [if_neg (by omega), if_neg (by omega)]
      exact ⟨⟨by omega, by omega⟩, s1 _ _ _ e⟩
  cases a1 : f.isAlt with
  | true =>
    have hu : f.union rhs = { (unionBase f rhs).connect (unionBase f rhs).initial (f.size + rhs.initial) Epsilon with
        determined := false, isAlt := true } := by
      unfold Fsm.union
      simp only [a1, a2, Bool.not_true, Bool.not_false, Bool.and_self, Bool.false_and,
        Bool.false_eq_true, if_false, if_true]
      rfl
    refine ⟨fun q => if q < f.size then r q else s (q - f.size), ?_, ?_⟩
    · rw [hu]
      change (if (unionBase f rhs).initial < f.size then r (unionBase f rhs).initial else _) = 0
      rw [binit, if_pos hlt, r0]
    · intro q c p e
      rw [hu, show Edge { (unionBase f rhs).connect (unionBase f rhs).initial (f.size + rhs.initial) Epsilon with
        determined := false, isAlt := true } = ((unionBase f rhs).connect (unionBase f rhs).initial (f.size + rhs.initial) Epsilon).Edge from
        edge_congr rfl rfl, edge_connect, key_raw braw, binit] at e
      rcases e with e | ⟨rfl, rfl, rfl⟩
      · exact (key q c p e).2
      · simp only [if_pos hlt, r0]
        rw [if_neg (by omega), show f.size + rhs.initial - f.size = rhs.initial by omega, s0]
        exact ⟨Nat.zero_le _, fun h => absurd rfl h, Nat.zero_le _⟩
  | false =>
    have hu : f.union rhs = { (((unionBase f rhs).resize ((unionBase f rhs).size + 1)).connect (unionBase f rhs).size (unionBase f rhs).initial Epsilon).connect
        (unionBase f rhs).size (f.size + rhs.initial) Epsilon with initial := (unionBase f rhs).size, determined := false, isAlt := true } := by
      unfold Fsm.union
      simp only [a1, a2, Bool.not_false, Bool.and_self, if_true]
      rfl
    refine ⟨fun q => if q < f.size then r q else if q < f.size + rhs.size then s (q - f.size) else 0, ?_, ?_⟩
    · rw [hu]
      change (if (unionBase f rhs).size < f.size then r (unionBase f rhs).size else
        if (unionBase f rhs).size < f.size + rhs.size then s ((unionBase f rhs).size - f.size) else 0) = 0
      rw [if_neg (by rw [bsize]; omega), if_neg (by rw [bsize]; omega)]
    · intro q c p e
      rw [hu, show Edge { (((unionBase f rhs).resize ((unionBase f rhs).size + 1)).connect (unionBase f rhs).size (unionBase f rhs).initial Epsilon).connect
        (unionBase f rhs).size (f.size + rhs.initial) Epsilon with initial := (unionBase f rhs).size, determined := false, isAlt := true } =
        ((((unionBase f rhs).resize ((unionBase f rhs).size + 1)).connect (unionBase f rhs).size (unionBase f rhs).initial Epsilon).connect
        (unionBase f rhs).size (f.size + rhs.initial) Epsilon).Edge from edge_congr rfl rfl, edge_connect, edge_connect,
        resize_edge bw (by omega)] at e
      have hc : ∀ g : Fsm, g.letters = Partition.empty → g.key c = 257 → c = 257 := by
        intro g hg h
        rw [key_raw hg] at h
        exact h
      rcases e with (e | ⟨rfl, rfl, h⟩) | ⟨rfl, rfl, h⟩
      · obtain ⟨⟨k1, k2⟩, k3⟩ := key q c p e
        simp only [if_pos k1, if_pos k2]
        exact k3
      · have hc' := hc _ (by rw [resize_letters]; exact braw) h
        subst hc'
        simp only [bsize]
        rw [if_neg (by omega), if_neg (by omega), if_pos (by rw [binit]; exact hlt), binit, r0]
        exact ⟨Nat.zero_le _, fun h => absurd rfl h, Nat.zero_le _⟩
      · have hc' := hc _ (by rw [show ∀ (g : Fsm) a b d, (g.connect a b d).letters = g.letters from fun _ _ _ _ => rfl, resize_letters]; exact braw) h
        subst hc'
        simp only [bsize]
        rw [if_neg (by omega), if_neg (by omega), if_neg (by omega), if_pos (by omega), show f.size + rhs.initial - f.size = rhs.initial by omega, s0]
        exact ⟨Nat.zero_le _, fun h => absurd rfl h, Nat.zero_le _⟩

end Fsm

namespace Count

open Fsm Counting

theorem forDot_good : forDot.Good := Good.init.appendDot init_raw rfl

theorem forChar_good {c : Nat} (hc : c < 264) : (forChar c).Good :=
  .of_raw (WF.init.appendChar hc) (init_raw.appendChar c) (.of_false rfl) rfl

theorem init_noEdge (q c p : Nat) : ¬ Fsm.init.Edge q c p := by
  rw [edge_iff, mem_dst]
  rintro ⟨S, hS, _⟩
  cases hS

theorem forDot_ranked : forDot.Ranked := by
  obtain ⟨h1, h2, h3, h4⟩ := appendLetters_fields Fsm.init (List.range 256)
  refine ⟨fun q => q, h2, ?_⟩
  intro q c p e
  unfold forDot appendDot at e
  rw [appendLetters_edge WF.init] at e
  rcases e with e | ⟨h, rfl, _⟩
  · exact absurd e (init_noEdge _ _ _)
  · have : q = 0 := Finset.mem_singleton.1 h
    subst this
    exact ⟨Nat.zero_le _, fun _ => Nat.one_pos, Nat.le_refl _⟩

theorem forChar_ranked (c : Nat) : (forChar c).Ranked := by
  refine ⟨fun q => q, appendChar_initial .., ?_⟩
  intro q d p e
  unfold forChar at e
  rw [appendChar_edge WF.init] at e
  rcases e with e | ⟨h, rfl, _⟩
  · exact absurd e (init_noEdge _ _ _)
  · have : q = 0 := Finset.mem_singleton.1 h
    subst this
    exact ⟨Nat.zero_le _, fun _ => Nat.one_pos, Nat.le_refl _⟩

theorem anyChar_good : anyChar.Good := by
  unfold anyChar
  exact (forDot_good.union (forChar_good (by decide))).union (forChar_good (by decide))

theorem anyChar_ranked : anyChar.Ranked := by
  unfold anyChar
  exact (forDot_ranked.union forDot_good (forChar_good (by decide)) rfl (forChar_ranked _)).union
    (forDot_good.union (forChar_good (by decide))) (forChar_good (by decide)) rfl (forChar_ranked _)

theorem anyChar_isAlt : anyChar.isAlt = true := by unfold anyChar; rfl

theorem anyChar_lang (w : List Nat) : w ∈ anyChar.Lang ↔ Lone w := by
  have hb := forChar_good (c := BeginMark) (by decide)
  have he := forChar_good (c := EndMark) (by decide)
  have hd := forDot_good
  have h1 : anyChar.Lang = (forDot.Lang + (forChar BeginMark).Lang) + (forChar EndMark).Lang := by
    unfold anyChar
    have hdb := hd.union hb
    rw [(union_shape hdb.wf hdb.coh hdb.alt he.wf he.coh he.alt).lang, (union_shape hd.wf hd.coh hd.alt hb.wf hb.coh hb.alt).lang]
  have hch : ∀ c, c ≠ 257 → ∀ w, w ∈ (forChar c).Lang ↔ w = [c] := by
    intro c hc w
    unfold forChar
    rw [lang_appendChar WF.init init_raw hc, lang_init, Language.mem_mul]
    simp only [single]
    constructor
    · rintro ⟨a, rfl, b, rfl, rfl⟩; rfl
    · rintro rfl; exact ⟨[], rfl, [c], rfl, rfl⟩
  have hdot : ∀ w, w ∈ forDot.Lang ↔ ∃ c, c < 256 ∧ w = [c] := by
    intro w
    unfold forDot
    rw [lang_appendDot WF.init init_raw, lang_init, Language.mem_mul]
    simp only [single, anyByte]
    constructor
    · rintro ⟨a, rfl, b, ⟨c, hc, rfl⟩, rfl⟩; exact ⟨c, hc, rfl⟩
    · rintro ⟨c, hc, rfl⟩; exact ⟨[], rfl, [c], ⟨c, hc, rfl⟩, rfl⟩
  rw [h1, Language.mem_add, Language.mem_add, hdot, hch _ (by decide), hch _ (by decide)]
  unfold Lone Plain
  constructor
  · rintro ((⟨c, hc, rfl⟩ | rfl) | rfl)
    · exact ⟨c, .inl hc, rfl⟩
    · exact ⟨_, .inr (.inl rfl), rfl⟩
    · exact ⟨_, .inr (.inr rfl), rfl⟩
  · rintro ⟨c, hc | rfl | rfl, rfl⟩
    · exact .inl (.inl ⟨c, hc, rfl⟩)
    · exact .inl (.inr rfl)
    · exact .inr rfl

theorem anyChar_tags (q : Nat) : anyChar.tags q = none := by
  have : anyChar.TagsIn fun _ => False := by
    unfold anyChar
    refine TagsIn.union (TagsIn.union ?_ ?_) ?_
    · exact TagsIn.of_eq TagsIn.init (appendDot_tags _)
    · exact TagsIn.of_eq TagsIn.init (appendChar_tags _ _)
    · exact TagsIn.of_eq TagsIn.init (appendChar_tags _ _)
  cases h : anyChar.tags q with
  | none => rfl
  | some t => exact (this q t h).elim

/-! ### The marked copy -/

theorem foldl_setTag (l : List Nat) (f : Fsm) :
    l.foldl (fun g q => g.setTag q 2) f = { f with tags := fun q => if q ∈ l then some 2 else f.tags q } := by
  induction l generalizing f with
  | nil => simp
  | cons a l ih =>
    rw [List.foldl_cons, ih]
    unfold Fsm.setTag
    congr 1
    funext q
    by_cases h1 : q ∈ l
    · simp [h1]
    · by_cases h2 : q = a
      · subst h2; simp
      · simp [h1, h2]

theorem tagAll_eq (f : Fsm) : tagAll f = { f with tags := fun q => if q < f.size then some 2 else f.tags q } := by
  unfold tagAll
  rw [foldl_setTag]
  simp only [List.mem_range]

theorem tagAll_edge (f : Fsm) : (tagAll f).Edge = f.Edge := by rw [tagAll_eq]; exact edge_congr rfl rfl

theorem tagAll_wf {f : Fsm} (h : f.WF) : (tagAll f).WF := by
  rw [tagAll_eq]
  exact h.congr rfl h.init_lt h.fin_lt rfl rfl

theorem tagAll_coh {f : Fsm} (h : f.Coh) : (tagAll f).Coh := by
  rw [tagAll_eq]; exact h

theorem addCopy_eq {f : Fsm} (h : f.WF) :
    addCopy f = (f.import_ (tagAll f)).connectAll ((elems f.finals).map fun q => (q, f.size + q, Epsilon)) := by
  unfold addCopy connectAll
  rw [List.foldl_map]
  have : ∀ l : List Nat, (∀ q ∈ l, q < f.size) → ∀ g : Fsm, l.foldl (fun g q => if q < f.size then g.connect q (f.size + q) Epsilon else g) g =
      l.foldl (fun g q => g.connect q (f.size + q) Epsilon) g := by
    intro l
    induction l with
    | nil => intro _ _; rfl
    | cons a l ih =>
      intro hl g
      rw [List.foldl_cons, List.foldl_cons, if_pos (hl a (by simp)), ih (fun q hq => hl q (by simp [hq]))]
  exact this _ (fun q hq => h.fin_lt q ((mem_elems ..).1 hq)) _

/-- What the automaton with the copy is. -/
structure CopySpec (f g : Fsm) : Prop where
  wf : g.WF
  raw : g.Raw
  isAlt : g.isAlt = false
  size : g.size = f.size + f.size
  initial : g.initial = f.initial
  finals : g.finals = f.finals
  edge : ∀ q c p, g.Edge q c p ↔ f.Edge q c p ∨ (f.size ≤ q ∧ f.size ≤ p ∧ f.Edge (q - f.size) c (p - f.size)) ∨
    (q ∈ f.finals ∧ p = f.size + q ∧ c = 257)
  tags : ∀ q, g.tags q = match f.tags q with | some v => some v | none => if f.size ≤ q ∧ q < f.size + f.size then some 2 else none

theorem addCopy_spec {f : Fsm} (h : f.WF) (hc : f.Coh) (ha : f.isAlt = false) (ht : ∀ q, f.size ≤ q → f.tags q = none) : CopySpec f (addCopy f) := by
  rw [addCopy_eq h]
  have hraw : (f.import_ (tagAll f)).Raw := import_raw _ _
  have hts : (tagAll f).size = f.size := by rw [tagAll_eq]
  have hwi : (f.import_ (tagAll f)).WF := WF.import_ h hc (tagAll_wf h) (tagAll_coh hc)
  refine ⟨?_, (connectAll_letters _ _).trans hraw, connectAll_isAlt' _ ha, ?_, connectAll_initial _ _, connectAll_finals _ _, ?_, ?_⟩
  · refine WF.connectAll hwi ?_
    intro q p c ht
    obtain ⟨q, hq, he⟩ := List.mem_map.1 ht
    cases he
    have := h.fin_lt q ((mem_elems ..).1 hq)
    have hs : (f.import_ (tagAll f)).size = f.size + f.size := by
      change f.size + (tagAll f).size = _; rw [hts]
    rw [hs]
    exact ⟨by omega, by omega, by decide⟩
  · rw [connectAll_size]
    change f.size + (tagAll f).size = _
    rw [hts]
  · intro q c p
    rw [edge_connectAll, import_edge h hc (tagAll_wf h) (tagAll_coh hc), tagAll_edge, or_assoc]
    apply or_congr Iff.rfl
    apply or_congr Iff.rfl
    rw [key_raw hraw]
    simp only [List.mem_map, mem_elems, Prod.mk.injEq]
    constructor
    · rintro ⟨x, hx, rfl, rfl, rfl⟩; exact ⟨hx, rfl, rfl⟩
    · rintro ⟨hx, rfl, rfl⟩; exact ⟨q, hx, rfl, rfl, rfl⟩
  · intro q
    rw [connectAll_tags]
    simp only [Fsm.import_]
    cases hq : f.tags q with
    | some v => rfl
    | none =>
      simp only
      rw [tagAll_eq]
      simp only
      by_cases h1 : f.size ≤ q
      · rw [if_pos h1]
        by_cases h2 : q < f.size + f.size
        · rw [if_pos (by omega), if_pos ⟨h1, h2⟩]
        · rw [if_neg (by omega), if_neg (by omega), ht _ (by omega)]
      · rw [if_neg h1, if_neg (by omega)]

/-! ### The whole automaton -/

/-- What the automaton is: the states below `n` are those of `D`, the next `n` ones are their marked copies, the rest is `anyChar`. -/
structure NfaSpec (D N : Fsm) : Prop where
  det : D.Det
  wf : N.WF
  nd : N.determined = false
  initial : N.initial = 2 * D.size + anyChar.initial
  finals : ∀ x, x ∈ N.finals ↔ x ∈ D.finals ∨ (2 * D.size ≤ x ∧ x - 2 * D.size ∈ anyChar.finals)
  edge : ∀ q c p, N.Edge q c p ↔ D.Edge q c p ∨ (D.size ≤ q ∧ D.size ≤ p ∧ D.Edge (q - D.size) c (p - D.size)) ∨
    (q ∈ D.finals ∧ p = D.size + q ∧ c = 257) ∨ (2 * D.size ≤ q ∧ 2 * D.size ≤ p ∧ anyChar.Edge (q - 2 * D.size) c (p - 2 * D.size)) ∨
    (q = N.initial ∧ p = D.initial ∧ c = 257)
  tagged : ∀ q, N.Tagged 1 q ↔ D.size ≤ q ∧ q < 2 * D.size

theorem nfa_spec {D : Fsm} (hd : D.Det) (ha : D.isAlt = false) (ht : ∀ q, D.size ≤ q → D.tags q = none) (hb : D.TagsIn fun t => t.testBit 1 = false) :
    NfaSpec D ((addCopy D).union anyChar) := by
  have hc := addCopy_spec hd.wf hd.coh ha ht
  have hA := anyChar_good
  have hu := union_shape hc.wf hc.raw.coh (.of_false hc.isAlt) hA.wf hA.coh hA.alt
  obtain ⟨u1, u2, u3, u4, u5⟩ := union_altRight hc.wf hc.raw.coh hA.wf hA.coh hc.isAlt anyChar_isAlt
  have h2 : (addCopy D).size = 2 * D.size := by rw [hc.size]; omega
  rw [h2] at u1 u3 u4
  refine ⟨hd, hu.wf, union_determined _ _, u1, ?_, ?_, ?_⟩
  · intro x; rw [u3, hc.finals]
  · intro q c p
    rw [u4, hc.edge, hc.initial, u1]
    simp only [or_assoc]
  · intro q
    unfold Tagged
    rw [u5]
    have htags : ((addCopy D).import_ anyChar).tags q = (addCopy D).tags q := by
      simp only [Fsm.import_]
      cases (addCopy D).tags q with
      | some v => rfl
      | none => simp only [anyChar_tags]; split <;> rfl
    rw [htags, hc.tags]
    cases hq : D.tags q with
    | some v =>
      simp only [Option.getD_some]
      have h1 := hb q v hq
      rw [h1]
      have : q < D.size := by
        by_contra hn
        rw [ht q (by omega)] at hq
        cases hq
      constructor
      · intro h; cases h
      · intro h; omega
    | none =>
      simp only
      by_cases hq : D.size ≤ q ∧ q < D.size + D.size
      · rw [if_pos hq]
        exact ⟨fun _ => by omega, fun _ => rfl⟩
      · rw [if_neg hq]
        constructor
        · intro h; simp at h
        · intro h; omega

namespace NfaSpec

variable {D N : Fsm} (h : NfaSpec D N)
include h

theorem edge_lt {q c p : Nat} (e : D.Edge q c p) : q < D.size ∧ p < D.size := ⟨(h.det.wf.edge_lt e).1, (h.det.wf.edge_lt e).2.2⟩

theorem initial_noin (q c : Nat) : ¬ N.Edge q c N.initial := by
  intro e
  have hA := anyChar_good.alt anyChar_isAlt
  have hi := h.det.wf.init_lt
  rw [h.edge, h.initial] at e
  rcases e with e | ⟨_, _, e⟩ | ⟨h1, h2, _⟩ | ⟨_, _, e⟩ | ⟨_, h2, _⟩
  · have := (h.edge_lt e).2; omega
  · have := (h.edge_lt e).2; omega
  · have := h.det.wf.fin_lt _ h1; omega
  · rw [show 2 * D.size + anyChar.initial - 2 * D.size = anyChar.initial by omega] at e
    exact hA.2.1 _ _ e
  · omega

/-- The part of `anyChar` is not entered from elsewhere. -/
theorem runS {q w p : _} (hr : Run N.Edge q w p) (hp : 2 * D.size ≤ p) : 2 * D.size ≤ q ∧ Run anyChar.Edge (q - 2 * D.size) w (p - 2 * D.size) := by
  have hi := h.det.wf.init_lt
  have step : ∀ {q c p}, N.Edge q c p → 2 * D.size ≤ p → 2 * D.size ≤ q ∧ anyChar.Edge (q - 2 * D.size) c (p - 2 * D.size) := by
    intro q c p e hp
    rw [h.edge] at e
    rcases e with e | ⟨_, _, e⟩ | ⟨h1, h2, _⟩ | ⟨h1, _, e⟩ | ⟨_, h2, _⟩
    · have := (h.edge_lt e).2; omega
    · have := (h.edge_lt e).2; omega
    · have := h.det.wf.fin_lt _ h1; omega
    · exact ⟨h1, e⟩
    · omega
  induction hr with
  | refl q => exact ⟨hp, .refl _⟩
  | eps e _ ih =>
    obtain ⟨h1, h2⟩ := ih hp
    obtain ⟨h3, h4⟩ := step e h1
    exact ⟨h3, .eps h4 h2⟩
  | step hc e _ ih =>
    obtain ⟨h1, h2⟩ := ih hp
    obtain ⟨h3, h4⟩ := step e h1
    exact ⟨h3, .step hc h4 h2⟩

theorem liftS {q w p : _} (hr : Run anyChar.Edge q w p) : Run N.Edge (2 * D.size + q) w (2 * D.size + p) := by
  have step : ∀ {q c p}, anyChar.Edge q c p → N.Edge (2 * D.size + q) c (2 * D.size + p) := by
    intro q c p e
    rw [h.edge]
    refine .inr (.inr (.inr (.inl ⟨by omega, by omega, ?_⟩)))
    rw [show 2 * D.size + q - 2 * D.size = q by omega, show 2 * D.size + p - 2 * D.size = p by omega]
    exact e
  induction hr with
  | refl q => exact .refl _
  | eps e _ ih => exact .eps (step e) ih
  | step hc e _ ih => exact .step hc (step e) ih

theorem liftA {q w p : _} (hr : Run D.Edge q w p) : Run N.Edge q w p := by
  induction hr with
  | refl q => exact .refl _
  | eps e _ ih => exact .eps ((h.edge _ _ _).2 (.inl e)) ih
  | step hc e _ ih => exact .step hc ((h.edge _ _ _).2 (.inl e)) ih

theorem liftC {q w p : _} (hr : Run D.Edge q w p) : Run N.Edge (D.size + q) w (D.size + p) := by
  have step : ∀ {q c p}, D.Edge q c p → N.Edge (D.size + q) c (D.size + p) := by
    intro q c p e
    rw [h.edge]
    refine .inr (.inl ⟨by omega, by omega, ?_⟩)
    rw [show D.size + q - D.size = q by omega, show D.size + p - D.size = p by omega]
    exact e
  induction hr with
  | refl q => exact .refl _
  | eps e _ ih => exact .eps (step e) ih
  | step hc e _ ih => exact .step hc (step e) ih

/-- Marked copies lead to marked copies. -/
theorem runC {q w p : _} (hr : Run N.Edge q w p) (h1 : D.size ≤ q) (h2 : q < 2 * D.size) :
    D.size ≤ p ∧ p < 2 * D.size ∧ Run D.Edge (q - D.size) w (p - D.size) := by
  have step : ∀ {q c p}, N.Edge q c p → D.size ≤ q → q < 2 * D.size → D.size ≤ p ∧ p < 2 * D.size ∧ D.Edge (q - D.size) c (p - D.size) := by
    intro q c p e h1 h2
    rw [h.edge, h.initial] at e
    rcases e with e | ⟨_, h3, e⟩ | ⟨h3, _⟩ | ⟨h3, _⟩ | ⟨h3, _⟩
    · have := (h.edge_lt e).1; omega
    · have := (h.edge_lt e).2
      exact ⟨h3, by omega, e⟩
    · have := h.det.wf.fin_lt _ h3; omega
    · omega
    · omega
  induction hr with
  | refl q => exact ⟨h1, h2, .refl _⟩
  | eps e _ ih =>
    obtain ⟨h3, h4, h5⟩ := step e h1 h2
    obtain ⟨h6, h7, h8⟩ := ih h3 h4
    exact ⟨h6, h7, .eps h5 h8⟩
  | step hc e _ ih =>
    obtain ⟨h3, h4, h5⟩ := step e h1 h2
    obtain ⟨h6, h7, h8⟩ := ih h3 h4
    exact ⟨h6, h7, .step hc h5 h8⟩

/-- From a state of `D`: within `D`, or through a final state to a marked copy. -/
theorem runA {q w p : _} (hr : Run N.Edge q w p) (hq : q < D.size) :
    (p < D.size ∧ Run D.Edge q w p) ∨ (D.size ≤ p ∧ p < 2 * D.size ∧ ∃ u v x, w = u ++ v ∧ x ∈ D.finals ∧ Run D.Edge q u x ∧ Run D.Edge x v (p - D.size)) := by
  have step : ∀ {q c p}, N.Edge q c p → q < D.size → D.Edge q c p ∨ (q ∈ D.finals ∧ p = D.size + q ∧ c = 257) := by
    intro q c p e hq
    rw [h.edge, h.initial] at e
    rcases e with e | ⟨h3, _⟩ | h3 | ⟨h3, _⟩ | ⟨h3, _⟩
    · exact .inl e
    · omega
    · exact .inr h3
    · omega
    · omega
  induction hr with
  | refl q => exact .inl ⟨hq, .refl _⟩
  | @eps q q' w p e hr ih =>
    rcases step e hq with e | ⟨h1, rfl, -⟩
    · rcases ih (h.edge_lt e).2 with ⟨h1, h2⟩ | ⟨h1, h2, u, v, x, rfl, hx, r1, r2⟩
      · exact .inl ⟨h1, .eps e h2⟩
      · exact .inr ⟨h1, h2, u, v, x, rfl, hx, .eps e r1, r2⟩
    · obtain ⟨h3, h4, h5⟩ := h.runC hr (by omega) (by omega)
      rw [show D.size + q - D.size = q by omega] at h5
      exact .inr ⟨h3, h4, [], _, q, rfl, h1, .refl _, h5⟩
  | @step q c q' w p hc e hr ih =>
    rcases step e hq with e | ⟨_, _, h3⟩
    · rcases ih (h.edge_lt e).2 with ⟨h1, h2⟩ | ⟨h1, h2, u, v, x, rfl, hx, r1, r2⟩
      · exact .inl ⟨h1, .step hc e h2⟩
      · exact .inr ⟨h1, h2, c :: u, v, x, rfl, hx, .step hc e r1, r2⟩
    · exact absurd h3 hc

/-- From the initial state: within `anyChar`, or from the initial state of `D`. -/
theorem runI {w p : _} (hr : Run N.Edge N.initial w p) :
    (2 * D.size ≤ p ∧ Run anyChar.Edge anyChar.initial w (p - 2 * D.size)) ∨ Run N.Edge D.initial w p := by
  by_cases hp : 2 * D.size ≤ p
  · obtain ⟨_, h2⟩ := h.runS hr hp
    rw [h.initial, show 2 * D.size + anyChar.initial - 2 * D.size = anyChar.initial by omega] at h2
    exact .inl ⟨hp, h2⟩
  · right
    have gen : ∀ q w p, Run N.Edge q w p → ¬ 2 * D.size ≤ p → 2 * D.size ≤ q → ∃ u v, w = u ++ v ∧ Run N.Edge q u N.initial ∧ Run N.Edge D.initial v p := by
      clear hp hr
      intro q w p hr
      have step : ∀ {q c p}, N.Edge q c p → 2 * D.size ≤ q → 2 * D.size ≤ p ∨ (q = N.initial ∧ p = D.initial ∧ c = 257) := by
        intro q c p e hq
        rw [h.edge] at e
        rcases e with e | ⟨_, _, e⟩ | ⟨h3, _⟩ | ⟨_, h3, _⟩ | h3
        · have := (h.edge_lt e).1; omega
        · have := (h.edge_lt e).1; omega
        · have := h.det.wf.fin_lt _ h3; omega
        · exact .inl h3
        · exact .inr h3
      induction hr with
      | refl q => intro hp hq; exact absurd hq hp
      | @eps q q' w p e hr ih =>
        intro hp hq
        rcases step e hq with h1 | ⟨rfl, rfl, _⟩
        · obtain ⟨u, v, rfl, h2, h3⟩ := ih hp h1
          exact ⟨u, v, rfl, .eps e h2, h3⟩
        · exact ⟨[], w, rfl, .refl _, hr⟩
      | @step q c q' w p hc e hr ih =>
        intro hp hq
        rcases step e hq with h1 | ⟨_, _, h3⟩
        · obtain ⟨u, v, rfl, h2, h3⟩ := ih hp h1
          exact ⟨c :: u, v, rfl, .step hc e h2, h3⟩
        · exact absurd h3 hc
    obtain ⟨u, v, rfl, h1, h2⟩ := gen _ _ _ hr hp (by rw [h.initial]; omega)
    have : u = [] := by
      rcases h1.snoc_inv with ⟨h1, _⟩ | ⟨b, _, e⟩ | ⟨b, c, _, _, _, _, e⟩
      · exact h1
      · exact absurd e (h.initial_noin _ _)
      · exact absurd e (h.initial_noin _ _)
    subst this
    exact h2

theorem initD {w p : _} (hr : Run D.Edge D.initial w p) : Run N.Edge N.initial w p :=
  .eps ((h.edge _ _ _).2 (.inr (.inr (.inr (.inr ⟨rfl, rfl, rfl⟩))))) (h.liftA hr)

/-- The language. -/
theorem lang (w : List Nat) : w ∈ N.Lang ↔ w ∈ D.Lang ∨ Lone w := by
  have hi := h.det.wf.init_lt
  rw [← anyChar_lang]
  constructor
  · rintro ⟨p, hp, hr⟩
    rcases h.runI hr with ⟨h1, h2⟩ | h1
    · rcases (h.finals p).1 hp with h3 | ⟨_, h3⟩
      · have := h.det.wf.fin_lt _ h3; omega
      · exact .inr ⟨_, h3, h2⟩
    · rcases h.runA h1 hi with ⟨h2, h3⟩ | ⟨h2, h3, _⟩
      · rcases (h.finals p).1 hp with h4 | ⟨h4, _⟩
        · exact .inl ⟨p, h4, h3⟩
        · omega
      · rcases (h.finals p).1 hp with h4 | ⟨h4, _⟩
        · have := h.det.wf.fin_lt _ h4; omega
        · omega
  · rintro (⟨p, hp, hr⟩ | ⟨p, hp, hr⟩)
    · exact ⟨p, (h.finals p).2 (.inl hp), h.initD hr⟩
    · refine ⟨2 * D.size + p, (h.finals _).2 (.inr ⟨by omega, by rwa [show 2 * D.size + p - 2 * D.size = p by omega]⟩), ?_⟩
      rw [h.initial]
      exact h.liftS hr

/-- Marked states are reached by the words that have a prefix in the language. -/
theorem marked {w : List Nat} (hw : IsWord w) : (∃ j, N.Tagged 1 j ∧ Run N.Edge N.initial w j) ↔ ∃ u, u <+: w ∧ u ∈ D.Lang := by
  have hi := h.det.wf.init_lt
  constructor
  · rintro ⟨j, hj, hr⟩
    obtain ⟨j1, j2⟩ := (h.tagged j).1 hj
    rcases h.runI hr with ⟨h1, _⟩ | h1
    · omega
    · rcases h.runA h1 hi with ⟨h2, _⟩ | ⟨_, _, u, v, x, rfl, hx, r1, _⟩
      · omega
      · exact ⟨u, List.prefix_append _ _, x, hx, r1⟩
  · rintro ⟨u, ⟨v, rfl⟩, x, hx, hr⟩
    have hv : IsWord v := fun c hc => hw c (by simp [hc])
    obtain ⟨p, hp, hr'⟩ := h.det.exists_run hv (h.det.wf.fin_lt x hx)
    refine ⟨D.size + p, (h.tagged _).2 ⟨by omega, by omega⟩, ?_⟩
    refine (h.initD hr).trans (.eps ?_ (h.liftC hr'))
    exact (h.edge _ _ _).2 (.inr (.inr (.inl ⟨hx, rfl, rfl⟩)))

/-- The final states of `anyChar` are reached by the words of one character. -/
theorem lone (w : List Nat) : (∃ j, (2 * D.size ≤ j ∧ j - 2 * D.size ∈ anyChar.finals) ∧ Run N.Edge N.initial w j) ↔ Lone w := by
  have hi := h.det.wf.init_lt
  rw [← anyChar_lang]
  constructor
  · rintro ⟨j, ⟨h1, h2⟩, hr⟩
    rcases h.runI hr with ⟨h3, h4⟩ | h3
    · exact ⟨_, h2, h4⟩
    · rcases h.runA h3 hi with ⟨h4, _⟩ | ⟨_, h4, _⟩ <;> omega
  · rintro ⟨p, hp, hr⟩
    refine ⟨2 * D.size + p, ⟨by omega, by rwa [show 2 * D.size + p - 2 * D.size = p by omega]⟩, ?_⟩
    rw [h.initial]
    exact h.liftS hr

/-- A state at which `Determine` stops is a final state of `D`. -/
theorem terminal {t : Nat} (ht : t ∈ N.removeEpsilons.terminalStates) : t ∈ D.finals := by
  have hs := removeEpsilons_spec h.wf
  unfold terminalStates at ht
  obtain ⟨hf, hl⟩ := Finset.mem_filter.1 ht
  obtain ⟨r, hr⟩ := Option.isSome_iff_exists.1 ((hs.all 0).2 ⟨by norm_num, by norm_num⟩)
  obtain ⟨e, he, rfl, hm⟩ := (hs.wf.let_wf.inv_iff _ _).1 hr
  obtain ⟨hc, q', h1, h2⟩ := (hs.dst _ _ _).1 (hl e he)
  obtain ⟨p, hp, hr'⟩ := (hs.finals t).1 hf
  by_cases hA : t < D.size
  · rcases h.runA hr' hA with ⟨h3, h4⟩ | ⟨h3, h4, _⟩
    · have : p = t := by
        cases h4 with
        | refl => rfl
        | eps e _ => exact absurd e h.det.no_eps
      subst this
      rcases (h.finals p).1 hp with h5 | ⟨h5, _⟩
      · exact h5
      · omega
    · rcases (h.finals p).1 hp with h5 | ⟨h5, _⟩
      · have := h.det.wf.fin_lt _ h5; omega
      · omega
  · exfalso
    by_cases hC : t < 2 * D.size
    · obtain ⟨h3, h4, _⟩ := h.runC hr' (by omega) hC
      rcases (h.finals p).1 hp with h5 | ⟨h5, _⟩
      · have := h.det.wf.fin_lt _ h5; omega
      · omega
    · obtain ⟨h3, h4⟩ := h.runS (Run.one hc h2) (by omega)
      obtain ⟨_, h5⟩ := h.runS h1 h3
      obtain ⟨rk, _, hrk⟩ := anyChar_ranked
      have mono : ∀ {q w p}, Run anyChar.Edge q w p → rk q ≤ rk p ∧ (w ≠ [] → rk q < rk p) := by
        intro q w p hr
        induction hr with
        | refl q => exact ⟨le_refl _, fun h => absurd rfl h⟩
        | eps e _ ih =>
          have := (hrk _ _ _ e).1
          exact ⟨le_trans this ih.1, fun h => lt_of_le_of_lt this (ih.2 h)⟩
        | step hc e _ ih =>
          have := (hrk _ _ _ e).2.1 hc
          exact ⟨le_of_lt (lt_of_lt_of_le this ih.1), fun _ => lt_of_lt_of_le this ih.1⟩
      have a1 := (mono h5).1
      have a2 := (mono h4).2 (by simp)
      omega

theorem terminal_tagged {t : Nat} (ht : t ∈ N.removeEpsilons.terminalStates) : N.removeEpsilons.Tagged 1 t := by
  have hd := h.terminal ht
  have hlt := h.det.wf.fin_lt _ hd
  have htag : ∀ q, N.Tagged 1 q → q < N.size := by
    intro q hq
    obtain ⟨h1, h2⟩ := (h.tagged q).1 hq
    have := h.wf.init_lt
    rw [h.initial] at this
    omega
  rw [tagged_removeEpsilons h.wf htag]
  exact ⟨D.size + t, (h.tagged _).2 ⟨by omega, by omega⟩, .eps ((h.edge _ _ _).2 (.inr (.inr (.inl ⟨hd, rfl, rfl⟩)))) (.refl _)⟩

end NfaSpec

end Count
end Pire
