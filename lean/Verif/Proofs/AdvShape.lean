import Verif.Proofs.AdvTable
import Verif.Proofs.DetTags
import Verif.Proofs.Tags
import Verif.Proofs.Complement
import Verif.Proofs.Dead

/-! # The automaton `CountingFsm` works with -/

namespace Pire
namespace Count
namespace Adv

open Spec

theorem minimize_tags_none {x : Fsm} (h : x.Det) {p : Nat} (hp : x.minimize.size ≤ p) : x.minimize.tags p = none := by
  have hm := h.minSpec
  unfold Fsm.minimize at hp ⊢
  rw [if_pos h.flag] at hp ⊢
  simp only at hp ⊢
  generalize (x.minTask.run x.minCls x.minClasses).cls = cls at *
  generalize (x.minTask.run x.minCls x.minClasses).classes = n at *
  have hs : (x.mergeClasses cls n).size = n := (Fsm.mergeClasses_fields x cls n).1
  change (x.mergeClasses cls n).size ≤ p at hp
  change (x.mergeClasses cls n).tags p = none
  rw [hs] at hp
  simp only [Fsm.mergeClasses]
  rw [Fsm.connectAll_tags]
  suffices ∀ (l : List Nat), (∀ q ∈ l, q < x.size) → ∀ ts : Nat → Option Nat, ts p = none → l.foldl (fun ts q => match x.tags q with
      | none => ts
      | some t => Function.update ts (cls q) (some ((ts (cls q)).getD 0 ||| t))) ts p = none from
    this _ (fun q hq => List.mem_range.1 hq) _ rfl
  intro l
  induction l with
  | nil => exact fun _ ts h => h
  | cons q l ih =>
    intro hl ts hts
    rw [List.foldl_cons]
    refine ih (fun q hq => hl q (List.mem_cons_of_mem _ hq)) _ ?_
    cases x.tags q with
    | none => exact hts
    | some v =>
      have := hm.lt q (hl q List.mem_cons_self)
      simp only
      rw [Function.update_of_ne (by omega)]
      exact hts

theorem canonize_tags_none {f g : Fsm} (h : f.Good) {m : Nat} (hg : f.canonize m = some g) {p : Nat} (hp : g.size ≤ p) : g.tags p = none := by
  unfold Fsm.canonize at hg
  cases hf : f.determined with
  | true =>
    rw [if_pos hf] at hg
    cases hg
    exact minimize_tags_none (h.det hf) hp
  | false =>
    rw [if_neg (by simp [hf])] at hg
    simp only at hg
    split at hg
    · rename_i ok
      cases hg
      exact minimize_tags_none (Fsm.determine_det h ok).1 hp
    · cases hg

/-- No state of the automaton is tagged. -/
def Untagged (f : Fsm) : Prop := f.TagsIn (· = 0)

theorem canonize_untagged {f g : Fsm} (h : Untagged f) {m : Nat} (hg : f.canonize m = some g) (q : Nat) : g.tag q = 0 := by
  have := Fsm.TagsIn.canonize (M := (· = 0)) (fun a b ha hb => by rw [ha, hb]; rfl) h hg
  unfold Fsm.tag
  cases ht : g.tags q with
  | none => rfl
  | some v => exact this q v ht

theorem tagSep_eq (f : Fsm) : tagSep f = { f with tags := fun q => if q < f.size then some 4 else f.tags q } := by
  unfold tagSep
  suffices ∀ n, (List.range n).foldl (fun g q => g.setTag q 4) f = { f with tags := fun q => if q < n then some 4 else f.tags q } from this _
  intro n
  induction n with
  | zero => simp
  | succ n ih =>
    rw [List.range_succ, List.foldl_append, ih]
    show Fsm.setTag _ n 4 = _
    unfold Fsm.setTag
    congr 1
    funext q
    by_cases hq : q = n
    · subst hq; rw [Function.update_self, if_pos (by omega)]
    · rw [Function.update_of_ne hq]
      dsimp only
      by_cases h : q < n
      · rw [if_pos h, if_pos (by omega)]
      · rw [if_neg h, if_neg (by omega)]

theorem tagRe_spec (finals : Finset Nat) (b : Bool) (f : Fsm) :
    (tagRe finals b f).size = f.size ∧ (tagRe finals b f).initial = f.initial ∧ (tagRe finals b f).tr = f.tr ∧ (tagRe finals b f).letters = f.letters ∧
    (∀ q, q ∈ (tagRe finals b f).finals ↔ q ∈ f.finals ∨ (b = true ∧ q ∈ finals)) ∧
    ∀ q, (tagRe finals b f).tags q = if q ∈ finals then some 2 else f.tags q := by
  unfold tagRe
  have gen : ∀ (l : List Nat) (g : Fsm), 
      let r := l.foldl (fun (g : Fsm) q => let g := g.setTag q 2; if b then g.setFinal q true else g) g
      r.size = g.size ∧ r.initial = g.initial ∧ r.tr = g.tr ∧ r.letters = g.letters ∧
      (∀ q, q ∈ r.finals ↔ q ∈ g.finals ∨ (b = true ∧ q ∈ l)) ∧ ∀ q, r.tags q = if q ∈ l then some 2 else g.tags q := by
    intro l
    induction l with
    | nil => intro g; simp
    | cons x l ih =>
      intro g
      obtain ⟨h1, h2, h3, h4, h5, h6⟩ := ih (if b then (g.setTag x 2).setFinal x true else g.setTag x 2)
      dsimp only at h1 h2 h3 h4 h5 h6 ⊢
      rw [List.foldl_cons]
      have ht : ∀ q, (if b then (g.setTag x 2).setFinal x true else g.setTag x 2).tags q = if q = x then some 2 else g.tags q := by
        intro q
        have : (if b then (g.setTag x 2).setFinal x true else g.setTag x 2).tags q = Function.update g.tags x (some 2) q := by cases b <;> rfl
        rw [this, Function.update_apply]
      refine ⟨h1.trans (by cases b <;> rfl), h2.trans (by cases b <;> rfl), h3.trans (by cases b <;> rfl), h4.trans (by cases b <;> rfl), ?_, ?_⟩
      · intro q
        rw [h5]
        cases b with
        | false => simp [Fsm.setTag]
        | true =>
          simp only [if_true, Fsm.setFinal, Fsm.setTag, Finset.mem_insert, true_and, List.mem_cons]
          tauto
      · intro q
        rw [h6, ht]
        simp only [List.mem_cons]
        by_cases h1 : q ∈ l
        · simp [h1]
        · by_cases h2 : q = x <;> simp [h1, h2]
  obtain ⟨h1, h2, h3, h4, h5, h6⟩ := gen (elems finals) f
  refine ⟨h1, h2, h3, h4, ?_, ?_⟩
  · intro q; rw [h5, mem_elems]
  · intro q; rw [h6]; simp only [mem_elems]

theorem concat_tags (f g : Fsm) (p : Nat) : (f.concat g).tags p = match f.tags p with
    | some v => some v
    | none => if f.size ≤ p then g.tags (p - f.size) else none := by
  have : (f.concat g).tags = (f.import_ g).tags := by
    unfold Fsm.concat
    simp only
    refine (Fsm.foldl_tags (F := fun (h : Fsm) q => h.setFinal (q + f.size) true) (fun _ _ => rfl) _ _).trans ?_
    exact Fsm.foldl_tags (F := fun (h : Fsm) (e : Nat × Nat) => h.connectFinal e.2 e.1) (fun g e => Fsm.connectFinal_tags ..) _ _
  rw [this]
  rfl

/-- What `CountingFsm` works with: `f` is made of `A`, which recognizes what is counted, and `B`, which recognizes separators. The states of `A` come
first, then those of `B`; the last state is the initial one. -/
structure Shape (A B f : Fsm) : Prop where
  det : A.Det ∧ B.Det
  wf : f.WF
  size : f.size = A.size + B.size + 1
  initial : f.initial = A.size + B.size
  edge : ∀ q c p, IsLetter c → (f.Edge q c p ↔ A.Edge q c p ∨ (A.size ≤ q ∧ A.size ≤ p ∧ B.Edge (q - A.size) c (p - A.size)) ∨
    (q ∈ A.finals ∧ A.size ≤ p ∧ B.Edge B.initial c (p - A.size)) ∨
    (q = A.size + B.size ∧ (p = A.size + B.size ∨ A.Edge A.initial c p ∨
      (A.initial ∈ A.finals ∧ A.size ≤ p ∧ B.Edge B.initial c (p - A.size)))))
  noeps : ∀ q p, ¬ f.Edge q 257 p
  finals : ∀ q, q ∈ f.finals ↔ (A.size ≤ q ∧ q - A.size ∈ B.finals) ∨ (B.initial ∈ B.finals ∧ q ∈ A.finals) ∨
    (q = A.size + B.size ∧ B.initial ∈ B.finals ∧ A.initial ∈ A.finals)
  tag : ∀ q, f.tag q = if q ∈ A.finals ∨ (q = A.size + B.size ∧ A.initial ∈ A.finals) then 2 else if A.size ≤ q ∧ q < A.size + B.size then 4 else 0
  all : Multi.AllLetters f.letters
  same : ∀ c r, f.letters.inv c = some r → ∀ q, f.tr q r = f.tr q c
  sparsed : f.sparsed = true
  coh : f.Coh

theorem series_spec {A B : Fsm} (hA : A.Det) (hB : B.Det) (hn : ∀ p, A.size ≤ p → A.tags p = none) (h0 : ∀ q, A.tag q = 0) :
    (series A B).WF ∧ (series A B).size = A.size + B.size ∧ (series A B).initial = A.initial ∧
    (∀ q c p, (series A B).Edge q c p ↔ A.Edge q c p ∨ (A.size ≤ q ∧ A.size ≤ p ∧ B.Edge (q - A.size) c (p - A.size)) ∨
      (q ∈ A.finals ∧ A.size ≤ p ∧ B.Edge B.initial c (p - A.size))) ∧
    (∀ q, q ∈ (series A B).finals ↔ (A.size ≤ q ∧ q - A.size ∈ B.finals) ∨ (B.initial ∈ B.finals ∧ q ∈ A.finals)) ∧
    ∀ q, q < A.size + B.size → (series A B).tag q = if q ∈ A.finals then 2 else if A.size ≤ q then 4 else 0 := by
  have eB : (tagSep B).Edge = B.Edge := by rw [tagSep_eq]; exact Fsm.edge_congr rfl rfl
  have wB : (tagSep B).WF := by
    rw [tagSep_eq]
    exact hB.wf.congr rfl hB.wf.init_lt hB.wf.fin_lt rfl rfl
  have cB : (tagSep B).Coh := by rw [tagSep_eq]; exact hB.coh
  have sB : (tagSep B).size = B.size := by rw [tagSep_eq]
  have iB : (tagSep B).initial = B.initial := by rw [tagSep_eq]
  have fB : (tagSep B).finals = B.finals := by rw [tagSep_eq]
  obtain ⟨c1, c2, c3, c4, c5, c6⟩ := Fsm.concat_spec hA.wf hA.coh wB cB
  obtain ⟨t1, t2, t3, t4, t5, t6⟩ := tagRe_spec A.finals (B.isFinal B.initial) (A.concat (tagSep B))
  have hf : B.isFinal B.initial = true ↔ B.initial ∈ B.finals := by simp [Fsm.isFinal]
  have hfin : ∀ q, q ∈ (series A B).finals ↔ (A.size ≤ q ∧ q - A.size ∈ B.finals) ∨ (B.initial ∈ B.finals ∧ q ∈ A.finals) := by
    intro q
    refine (t5 q).trans ?_
    rw [c4, fB, hf]
  have hsz : (series A B).size = A.size + B.size := t1.trans (c1.trans (by rw [sB]))
  have hini : (series A B).initial = A.initial := t2.trans c2
  refine ⟨?_, hsz, hini, ?_, hfin, ?_⟩
  · refine c6.congr t1 ?_ ?_ t3 t4
    · show (series A B).initial < (series A B).size
      rw [hsz, hini]; have := hA.wf.init_lt; omega
    · intro q hq
      show q < (series A B).size
      rw [hsz]
      rcases (hfin q).1 hq with ⟨h1, h2⟩ | ⟨-, h2⟩
      · have := hB.wf.fin_lt _ h2; omega
      · have := hA.wf.fin_lt _ h2; omega
  · intro q c p
    have : (series A B).Edge = (A.concat (tagSep B)).Edge := Fsm.edge_congr t3 t4
    rw [this, c5, eB, iB]
  · intro q hq
    show ((series A B).tags q).getD 0 = _
    have : (series A B).tags q = _ := t6 q
    rw [this, concat_tags]
    by_cases h1 : q ∈ A.finals
    · rw [if_pos h1, if_pos h1]; rfl
    · rw [if_neg h1, if_neg h1]
      by_cases h2 : A.size ≤ q
      · rw [hn q h2, if_pos h2]
        simp only
        rw [if_pos h2, tagSep_eq]
        simp only
        rw [if_pos (by omega)]; rfl
      · have := h0 q
        unfold Fsm.tag at this
        cases ht : A.tags q with
        | none => simp only [if_neg h2]; rfl
        | some v => rw [ht] at this; simp only [if_neg h2]; exact this

theorem eps_run {f : Fsm} {N i : Nat} (he : ∀ q p, f.Edge q 257 p → q = N ∧ (p = N ∨ p = i)) (hi : i ≠ N) {q p : Nat} (h : Run f.Edge q [] p) :
    p = q ∨ (q = N ∧ p = i) := by
  generalize hw : ([] : List Nat) = w at h
  induction h with
  | refl => exact .inl rfl
  | eps e _ ih =>
    obtain ⟨rfl, h | h⟩ := he _ _ e
    · subst h; exact ih hw
    · subst h
      rcases ih hw with rfl | ⟨h, -⟩
      · exact .inr ⟨rfl, rfl⟩
      · exact absurd h hi
  | step => cases hw

theorem shape {A B : Fsm} (hA : A.Det) (hB : B.Det) (hn : ∀ p, A.size ≤ p → A.tags p = none) (h0 : ∀ q, A.tag q = 0)
    (hout : ∀ p, B.size ≤ p → B.tags p = none) :
    Shape A B (series A B).prependAnything.removeEpsilons := by
  obtain ⟨s1, s2, s3, s4, s5, s6⟩ := series_spec hA hB hn h0
  have hw := s1.prependAnything
  have hs := Fsm.removeEpsilons_spec hw
  have hiA := hA.wf.init_lt
  have hiB := hB.wf.init_lt
  have hpe : ∀ q c p, (series A B).prependAnything.Edge q c p ↔ _ := Fsm.prependAnything_edge s1
  rw [s2, s3] at hpe
  have heps : ∀ q p, (series A B).prependAnything.Edge q 257 p ↔ q = A.size + B.size ∧ (p = A.size + B.size ∨ p = A.initial) := by
    intro q p
    rw [hpe, s4]
    have h1 : ¬ A.Edge q 257 p := hA.no_eps
    have h2 : ¬ B.Edge (q - A.size) 257 (p - A.size) := hB.no_eps
    have h3 : ¬ B.Edge B.initial 257 (p - A.size) := hB.no_eps
    simp only [h1, h2, h3, and_false, or_false, false_or, and_true]
    constructor
    · rintro (⟨rfl, rfl, -⟩ | ⟨rfl, rfl⟩)
      · exact ⟨rfl, .inl rfl⟩
      · exact ⟨rfl, .inr rfl⟩
    · rintro ⟨rfl, rfl | rfl⟩
      · exact .inl ⟨rfl, rfl, by omega⟩
      · exact .inr ⟨rfl, rfl⟩
  have hrun : ∀ q p, Run (series A B).prependAnything.Edge q [] p ↔ p = q ∨ (q = A.size + B.size ∧ p = A.initial) := by
    intro q p
    refine ⟨eps_run (fun q p e => (heps q p).1 e) (by omega), ?_⟩
    rintro (rfl | ⟨rfl, rfl⟩)
    · exact .refl _
    · exact .eps ((heps _ _).2 ⟨rfl, .inr rfl⟩) (.refl _)
  refine ⟨⟨hA, hB⟩, hs.wf, ?_, ?_, ?_, ?_, ?_, ?_, hs.all, hs.same, hs.sparsed, hs.coh⟩
  · rw [hs.size, Fsm.prependAnything_size, s2]
  · rw [hs.initial, Fsm.prependAnything_initial, s2]
  · rintro q c p ⟨hc1, hc2⟩
    rw [hs.edge]
    have hone : ∀ q, (series A B).prependAnything.Edge q c p ↔ A.Edge q c p ∨ (A.size ≤ q ∧ A.size ≤ p ∧ B.Edge (q - A.size) c (p - A.size)) ∨
        (q ∈ A.finals ∧ A.size ≤ p ∧ B.Edge B.initial c (p - A.size)) ∨ (q = A.size + B.size ∧ p = A.size + B.size) := by
      intro q
      rw [hpe, s4]
      constructor
      · rintro ((h | h | h) | ⟨h1, h2, -⟩ | ⟨-, -, h⟩)
        · exact .inl h
        · exact .inr (.inl h)
        · exact .inr (.inr (.inl h))
        · exact .inr (.inr (.inr ⟨h1, h2⟩))
        · exact absurd h hc2
      · rintro (h | h | h | ⟨h1, h2⟩)
        · exact .inl (.inl h)
        · exact .inl (.inr (.inl h))
        · exact .inl (.inr (.inr h))
        · exact .inr (.inl ⟨h1, h2, hc1⟩)
    constructor
    · rintro ⟨-, q', hr, he⟩
      rw [hone] at he
      rcases (hrun _ _).1 hr with rfl | ⟨rfl, rfl⟩
      · rcases he with h | h | h | ⟨h1, h2⟩
        · exact .inl h
        · exact .inr (.inl h)
        · exact .inr (.inr (.inl h))
        · exact .inr (.inr (.inr ⟨h1, .inl h2⟩))
      · rcases he with h | ⟨h, -⟩ | h | ⟨h, -⟩
        · exact .inr (.inr (.inr ⟨rfl, .inr (.inl h)⟩))
        · omega
        · exact .inr (.inr (.inr ⟨rfl, .inr (.inr h)⟩))
        · omega
    · rintro (h | h | h | ⟨rfl, h | h | h⟩)
      · exact ⟨hc2, q, .refl _, (hone _).2 (.inl h)⟩
      · exact ⟨hc2, q, .refl _, (hone _).2 (.inr (.inl h))⟩
      · exact ⟨hc2, q, .refl _, (hone _).2 (.inr (.inr (.inl h)))⟩
      · exact ⟨hc2, _, .refl _, (hone _).2 (.inr (.inr (.inr ⟨rfl, h⟩)))⟩
      · exact ⟨hc2, A.initial, (hrun _ _).2 (.inr ⟨rfl, rfl⟩), (hone _).2 (.inl h)⟩
      · exact ⟨hc2, A.initial, (hrun _ _).2 (.inr ⟨rfl, rfl⟩), (hone _).2 (.inr (.inr (.inl h)))⟩
  · intro q p h
    exact ((hs.edge _ _ _).1 h).1 rfl
  · intro q
    rw [hs.finals, Fsm.prependAnything_finals]
    constructor
    · rintro ⟨q', h1, h2⟩
      rw [s5] at h1
      rcases (hrun _ _).1 h2 with rfl | ⟨rfl, rfl⟩
      · rcases h1 with h1 | h1
        · exact .inl h1
        · exact .inr (.inl h1)
      · rcases h1 with ⟨h1, -⟩ | ⟨h1, h2⟩
        · omega
        · exact .inr (.inr ⟨rfl, h1, h2⟩)
    · rintro (h | h | ⟨rfl, h1, h2⟩)
      · exact ⟨q, (s5 q).2 (.inl h), .refl _⟩
      · exact ⟨q, (s5 q).2 (.inr h), .refl _⟩
      · exact ⟨A.initial, (s5 _).2 (.inr ⟨h1, h2⟩), (hrun _ _).2 (.inr ⟨rfl, rfl⟩)⟩
  · intro q
    have htags : (series A B).prependAnything.tags = (series A B).tags := Fsm.prependAnything_tags _
    have hout' : ∀ q, A.size + B.size ≤ q → (series A B).tag q = 0 := by
      intro q hq
      show ((series A B).tags q).getD 0 = 0
      have h1 : (series A B).tags q = _ := (tagRe_spec A.finals (B.isFinal B.initial) (A.concat (tagSep B))).2.2.2.2.2 q
      rw [h1, if_neg (fun h => by have := hA.wf.fin_lt _ h; omega), concat_tags, hn q (by omega)]
      simp only
      rw [if_pos (by omega), tagSep_eq]
      simp only
      rw [if_neg (by omega), hout _ (by omega)]
      rfl
    have htag : ∀ q, ((series A B).prependAnything.tags q).getD 0 = (series A B).tag q := fun q => by rw [htags]; rfl
    have hlt : ∀ b q, (series A B).prependAnything.Tagged b q → q < (series A B).prependAnything.size := by
      intro b q h
      unfold Fsm.Tagged at h
      rw [htag] at h
      rw [Fsm.prependAnything_size, s2]
      by_contra hq
      rw [hout' q (by omega), Nat.zero_testBit] at h
      cases h
    apply Nat.eq_of_testBit_eq
    intro b
    have hb := Fsm.tagged_removeEpsilons hw (hlt b) q
    unfold Fsm.Tagged at hb
    rw [Bool.eq_iff_iff]
    refine hb.trans ?_
    simp only [htag]
    by_cases hq : q = A.size + B.size
    · subst hq
      have hnf : A.size + B.size ∉ A.finals := fun h => by have := hA.wf.fin_lt _ h; omega
      have e1 : (∃ q', (Fsm.tag (series A B) q').testBit b = true ∧ Run (series A B).prependAnything.Edge (A.size + B.size) [] q') ↔
          (Fsm.tag (series A B) A.initial).testBit b = true := by
        constructor
        · rintro ⟨q', h1, h2⟩
          rcases (hrun _ _).1 h2 with rfl | ⟨-, rfl⟩
          · rw [hout' _ (le_refl _), Nat.zero_testBit] at h1; cases h1
          · exact h1
        · intro h1
          exact ⟨_, h1, (hrun _ _).2 (.inr ⟨rfl, rfl⟩)⟩
      rw [e1, s6 _ (by omega)]
      simp only [hnf, false_or, true_and, lt_irrefl, and_false, if_false]
      by_cases hf : A.initial ∈ A.finals
      · rw [if_pos hf, if_pos hf]
      · rw [if_neg hf, if_neg hf, if_neg (by omega)]
    · have e1 : (∃ q', (Fsm.tag (series A B) q').testBit b = true ∧ Run (series A B).prependAnything.Edge q [] q') ↔
          (Fsm.tag (series A B) q).testBit b = true := by
        constructor
        · rintro ⟨q', h1, h2⟩
          rcases (hrun _ _).1 h2 with rfl | ⟨h, -⟩
          · exact h1
          · exact absurd h hq
        · intro h1
          exact ⟨_, h1, .refl _⟩
      rw [e1]
      simp only [hq, false_and, or_false]
      by_cases hq2 : q < A.size + B.size
      · rw [s6 _ hq2]
        simp only [hq2, and_true]
      · rw [hout' q (by omega), if_neg (fun h => by have := hA.wf.fin_lt _ h; omega), if_neg (by omega)]

/-- The constructor of `CountingFsm`. -/
theorem countingFsm_spec {re sep f : Fsm} {re0 : Nat} (h : re.Good) (h2 : sep.Good) (ht : Untagged re) (hc : countingFsm re sep = some (f, re0)) :
    ∃ A B, Shape A B f ∧ re0 = A.initial ∧ A.Lang = re.Lang ∧ B.Lang = sep.Lang := by
  unfold countingFsm at hc
  cases hA : re.canonize with
  | none => rw [hA] at hc; cases hc
  | some A =>
    cases hB : sep.canonize with
    | none => rw [hA, hB] at hc; cases hc
    | some B =>
      rw [hA, hB] at hc
      cases hc
      obtain ⟨a1, -, a3, -⟩ := Fsm.canonize_spec h hA
      obtain ⟨b1, -, b3, -⟩ := Fsm.canonize_spec h2 hB
      have hn := fun p => canonize_tags_none h hA (p := p)
      have h0 := fun q => canonize_untagged ht hA q
      exact ⟨A, B, shape a1 b1 hn h0 (fun p => canonize_tags_none h2 hB), (series_spec a1 b1 hn h0).2.2.1, a3, b3⟩

end Adv
end Count
end Pire
