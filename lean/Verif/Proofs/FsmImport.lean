import Verif.Proofs.FsmOps

/-! # Import, concatenation, union, power -/

namespace Pire
namespace Fsm

open Spec

/-! ### Unpacking -/

theorem foldl_unpack (S : Finset Nat) (rep : Nat) (ms : List Nat) (row : Nat → Option (Finset Nat))
    (c : Nat) :
    (ms.foldl (fun r c => if c ≠ rep ∧ r c = none then Function.update r c (some S) else r) row) c =
      if row c = none ∧ c ∈ ms ∧ c ≠ rep then some S else row c := by
  induction ms generalizing row with
  | nil => simp
  | cons d ms ih =>
    rw [List.foldl_cons, ih]
    by_cases hd : d ≠ rep ∧ row d = none
    · rw [if_pos hd]
      by_cases hcd : c = d
      · subst hcd
        simp [hd.1, hd.2]
      · simp [Function.update_apply, hcd]
    · rw [if_neg hd]
      by_cases hcd : c = d
      · subst hcd
        have : ¬ (row c = none ∧ c ≠ rep) := fun h => hd ⟨h.2, h.1⟩
        by_cases h1 : row c = none
        · have : c = rep := by by_contra h2; exact this ⟨h1, h2⟩
          simp [this]
        · simp [h1]
      · simp [hcd]

theorem unpackClass_apply (row : Nat → Option (Finset Nat)) (e : PClass) (c : Nat) :
    unpackClass row e c = if row c = none ∧ c ∈ e.members then row e.rep else row c := by
  unfold unpackClass
  cases h : row e.rep with
  | none =>
    dsimp only
    split
    · rename_i h1; exact h1.1
    · rfl
  | some S =>
    dsimp only
    rw [foldl_unpack]
    by_cases hc : c = e.rep
    · subst hc; simp [h]
    · simp [hc, h]

theorem unpackRow_apply {l : Partition} (hl : l.WF) {row : Nat → Option (Finset Nat)}
    (hrow : ∀ c r, l.inv c = some r → row c = none ∨ row c = row r) (c : Nat) :
    unpackRow l row c = row (l.repOr c) := by
  have gen : ∀ (cs : List PClass) (row : Nat → Option (Finset Nat)),
      (∀ e ∈ cs, e.rep ∈ e.members) →
      (cs.Pairwise fun a b => ∀ c, c ∈ a.members → c ∉ b.members) →
      ((∀ e ∈ cs, c ∈ e.members → row c = none → (cs.foldl unpackClass row) c = row e.rep) ∧
       ((∀ e ∈ cs, c ∉ e.members) → (cs.foldl unpackClass row) c = row c) ∧
       (row c ≠ none → (cs.foldl unpackClass row) c = row c)) := by
    intro cs
    induction cs with
    | nil => intro row _ _; simp
    | cons e cs ih =>
      intro row hrep hdis
      rw [List.pairwise_cons] at hdis
      have ih' := ih (unpackClass row e) (fun e' he' => hrep e' (by simp [he'])) hdis.2
      refine ⟨?_, ?_, ?_⟩
      · intro e' he' hc hnone
        rcases List.mem_cons.1 he' with rfl | he'
        · rw [List.foldl_cons]
          rw [ih'.2.1 (fun e'' he'' => hdis.1 e'' he'' c hc)]
          rw [unpackClass_apply, if_pos ⟨hnone, hc⟩]
        · rw [List.foldl_cons]
          have hce : c ∉ e.members := fun h => hdis.1 e' he' c h hc
          have h1 : unpackClass row e c = none := by
            rw [unpackClass_apply, if_neg (by tauto)]; exact hnone
          rw [ih'.1 e' he' hc h1, unpackClass_apply, if_neg]
          rintro ⟨_, h2⟩
          exact hdis.1 e' he' _ h2 (hrep e' (by simp [he']))
      · intro hall
        rw [List.foldl_cons, ih'.2.1 (fun e' he' => hall e' (by simp [he'])), unpackClass_apply, if_neg]
        rintro ⟨_, h2⟩
        exact hall e (by simp) h2
      · intro hne
        have h1 : unpackClass row e c = row c := by
          rw [unpackClass_apply, if_neg (by tauto)]
        rw [List.foldl_cons, ih'.2.2 (by rw [h1]; exact hne), h1]
  have hdis : l.set.Pairwise fun a b => ∀ c, c ∈ a.members → c ∉ b.members := by
    refine hl.sorted.imp_of_mem ?_
    intro a b ha hb hab c hca hcb
    have := hl.class_unique' ha hb hca hcb
    subst this; exact lt_irrefl _ hab
  obtain ⟨g1, g2, g3⟩ := gen l.set row hl.rep_mem hdis
  unfold unpackRow
  unfold Partition.repOr
  cases hc : l.inv c with
  | none =>
    rw [g2]; · rfl
    intro e he hm
    rw [hl.inv_of_mem he hm] at hc; cases hc
  | some r =>
    obtain ⟨e, he, rfl, hm⟩ := (hl.inv_iff _ _).1 hc
    simp only [Option.getD_some]
    by_cases hn : row c = none
    · exact g1 e he hm hn
    · rw [g3 hn]
      exact (hrow c _ hc).resolve_left hn

theorem WF.inv_eps {f : Fsm} (h : f.WF) : f.letters.inv 257 = none := by
  cases hc : f.letters.inv 257 with
  | none => rfl
  | some r => exact absurd rfl (h.let_lt _ _ hc).2

theorem WF.key_eq_repOr {f : Fsm} (h : f.WF) (c : Nat) : f.key c = f.letters.repOr c := by
  unfold key
  split
  · rename_i hc; subst hc; simp [Partition.repOr, h.inv_eps]
  · rfl

theorem import_tr_left {f rhs : Fsm} (h : f.WF) (hc : f.Coh) {q : Nat} (hq : q < f.size) (c : Nat) :
    (f.import_ rhs).tr q c = f.tr q (f.key c) := by
  simp only [import_, if_pos hq]
  rw [unpackRow_apply h.let_wf (fun c r hr => hc q c r hr), h.key_eq_repOr]

theorem import_tr_right {f rhs : Fsm} (h : rhs.WF) (hc : rhs.Coh) {q : Nat} (hq : f.size ≤ q)
    (hq2 : q < f.size + rhs.size) (c : Nat) :
    (f.import_ rhs).tr q c = (rhs.tr (q - f.size) (rhs.key c)).map (shift f.size) := by
  simp only [import_, if_neg (show ¬ q < f.size by omega), if_pos hq2]
  rw [unpackRow_apply h.let_wf, h.key_eq_repOr]
  intro c r hr
  rcases hc (q - f.size) c r hr with h1 | h1
  · left; rw [h1]; rfl
  · right; rw [h1]

theorem import_tr_ge {f rhs : Fsm} {q : Nat} (hq : f.size + rhs.size ≤ q) (c : Nat) :
    (f.import_ rhs).tr q c = none := by
  simp only [import_, if_neg (show ¬ q < f.size by omega), if_neg (show ¬ q < f.size + rhs.size by omega)]

@[simp] theorem import_letters (f rhs : Fsm) : (f.import_ rhs).letters = Partition.empty := rfl
@[simp] theorem import_size (f rhs : Fsm) : (f.import_ rhs).size = f.size + rhs.size := rfl
@[simp] theorem import_initial (f rhs : Fsm) : (f.import_ rhs).initial = f.initial := rfl
@[simp] theorem import_finals (f rhs : Fsm) : (f.import_ rhs).finals = f.finals := rfl

theorem import_raw (f rhs : Fsm) : (f.import_ rhs).Raw := rfl

theorem import_edge {f rhs : Fsm} (h : f.WF) (hc : f.Coh) (h2 : rhs.WF) (hc2 : rhs.Coh) (q c p : Nat) :
    (f.import_ rhs).Edge q c p ↔
      f.Edge q c p ∨ (f.size ≤ q ∧ f.size ≤ p ∧ rhs.Edge (q - f.size) c (p - f.size)) := by
  rw [edge_iff, edge_iff, edge_iff, key_raw (import_raw f rhs), mem_dst]
  by_cases hq : q < f.size
  · rw [import_tr_left h hc hq, ← mem_dst]
    constructor
    · exact .inl
    · rintro (h | h)
      · exact h
      · omega
  · by_cases hq2 : q < f.size + rhs.size
    · rw [import_tr_right h2 hc2 (by omega) hq2]
      constructor
      · rintro ⟨S, hS, hp⟩
        rw [Option.map_eq_some_iff] at hS
        obtain ⟨S', hS', rfl⟩ := hS
        simp only [shift, Finset.mem_image] at hp
        obtain ⟨p', hp', rfl⟩ := hp
        right
        refine ⟨by omega, by omega, mem_dst.2 ⟨S', hS', by simpa using hp'⟩⟩
      · rintro (h1 | ⟨_, h3, h4⟩)
        · have := (h.dst_lt h1).1; omega
        · obtain ⟨S', hS', hp'⟩ := mem_dst.1 h4
          refine ⟨shift f.size S', by rw [hS']; rfl, ?_⟩
          simp only [shift, Finset.mem_image]
          exact ⟨_, hp', by omega⟩
    · rw [import_tr_ge (by omega)]
      constructor
      · rintro ⟨S, hS, _⟩; cases hS
      · rintro (h1 | ⟨_, h3, h4⟩)
        · have := (h.dst_lt h1).1; omega
        · have := (h2.dst_lt h4).1; omega

theorem WF.import_ {f rhs : Fsm} (h : f.WF) (hc : f.Coh) (h2 : rhs.WF) (hc2 : rhs.Coh) : (f.import_ rhs).WF := by
  constructor
  · have := h.init_lt; simp; omega
  · intro q hq; have := h.fin_lt q hq; simp; omega
  · intro q c S hS
    rw [import_size]
    by_cases hq : q < f.size
    · rw [import_tr_left h hc hq] at hS
      have := h.tr_lt _ _ _ hS
      exact ⟨by omega, h.key_lt_iff.1 this.2.1, fun p hp => by have := this.2.2 p hp; omega⟩
    · by_cases hq2 : q < f.size + rhs.size
      · rw [import_tr_right h2 hc2 (by omega) hq2, Option.map_eq_some_iff] at hS
        obtain ⟨S', hS', rfl⟩ := hS
        have := h2.tr_lt _ _ _ hS'
        refine ⟨hq2, h2.key_lt_iff.1 this.2.1, ?_⟩
        intro p hp
        simp only [shift, Finset.mem_image] at hp
        obtain ⟨p', hp', rfl⟩ := hp
        have := this.2.2 p' hp'; omega
      · rw [import_tr_ge (by omega)] at hS; cases hS
  · exact Partition.WF.empty
  · simp [Partition.empty]

/-! ### Embedding -/

/-- `g` contains a copy (renamed by `η`) of the part of `f` inside the closed set `S`. -/
theorem langFrom_embed {f g : Fsm} {S : Nat → Prop} {η : Nat → Nat}
    (hS : ∀ q c p, S q → f.Edge q c p → S p)
    (hE : ∀ q c p', S q → (g.Edge (η q) c p' ↔ ∃ p, p' = η p ∧ f.Edge q c p))
    (hF : ∀ q, S q → (η q ∈ g.finals ↔ q ∈ f.finals)) {q : Nat} (hq : S q) :
    g.LangFrom (η q) = f.LangFrom q := by
  ext w
  rw [mem_langFrom, mem_langFrom]
  constructor
  · rintro ⟨p, hp, hr⟩
    obtain ⟨p', ⟨hp', rfl⟩, hr'⟩ := hr.map (E' := f.Edge) (R := fun a b => S b ∧ a = η b) (by
      rintro a c b a' ⟨ha', rfl⟩ e
      obtain ⟨b', rfl, e'⟩ := (hE _ _ _ ha').1 e
      exact ⟨b', ⟨hS _ _ _ ha' e', rfl⟩, e'⟩) ⟨hq, rfl⟩
    exact ⟨p', (hF p' hp').1 hp, hr'⟩
  · rintro ⟨p, hp, hr⟩
    obtain ⟨p', ⟨hp', rfl⟩, hr'⟩ := hr.map (E' := g.Edge) (R := fun a b => S a ∧ b = η a) (by
      rintro a c b a' ⟨ha', rfl⟩ e
      exact ⟨η b, ⟨hS _ _ _ ha' e, rfl⟩, (hE _ _ _ ha').2 ⟨b, rfl, e⟩⟩) ⟨hq, rfl⟩
    exact ⟨_, (hF _ hp').2 hp, hr'⟩

/-- A state that is not final and has only epsilon edges. -/
theorem mem_langFrom_epsOnly {f : Fsm} {q : Nat} (hq : q ∉ f.finals) (he : ∀ c p, f.Edge q c p → c = 257)
    {w : List Nat} : w ∈ f.LangFrom q ↔ ∃ p, f.Edge q 257 p ∧ w ∈ f.LangFrom p := by
  constructor
  · rintro ⟨p, hp, hr⟩
    cases hr with
    | refl => exact absurd hp hq
    | eps e h => exact ⟨_, e, p, hp, h⟩
    | step hc e h => exact absurd (he _ _ e) hc
  · rintro ⟨p, e, p', hp', hr⟩
    exact ⟨p', hp', .eps e hr⟩

/-! ### Concatenation -/

theorem foldl_cf_fields (l : List (Nat × Nat)) (f : Fsm) :
    let g := l.foldl (fun h e => h.connectFinal e.2 e.1) f
    g.size = f.size ∧ g.initial = f.initial ∧ g.finals = f.finals ∧ g.letters = f.letters := by
  induction l generalizing f with
  | nil => simp
  | cons c l ih => simpa using ih (f.connectFinal c.2 c.1)

theorem foldl_cf_edge (l : List (Nat × Nat)) (f : Fsm) (q c p : Nat) :
    (l.foldl (fun h e => h.connectFinal e.2 e.1) f).Edge q c p ↔
      f.Edge q c p ∨ (q ∈ f.finals ∧ (f.key c, p) ∈ l) := by
  induction l generalizing f with
  | nil => simp
  | cons d l ih =>
    obtain ⟨d1, d2⟩ := d
    rw [List.foldl_cons, ih, edge_connectFinal, key_congr (connectFinal_letters _ _ _)]
    simp only [connectFinal_finals, List.mem_cons, Prod.mk.injEq]
    tauto

theorem foldl_cf_wf {l : List (Nat × Nat)} {f : Fsm} (h : f.WF) (hl : ∀ e ∈ l, e.1 < 264 ∧ e.2 < f.size) :
    (l.foldl (fun h e => h.connectFinal e.2 e.1) f).WF := by
  induction l generalizing f with
  | nil => exact h
  | cons d l ih =>
    have := hl d (by simp)
    refine ih (h.connectFinal this.2 this.1) ?_
    intro e he
    simpa using hl e (by simp [he])

theorem foldl_setFinal (l : List Nat) (n : Nat) (f : Fsm) :
    let g := l.foldl (fun h q => h.setFinal (q + n) true) f
    g.size = f.size ∧ g.initial = f.initial ∧ g.letters = f.letters ∧ g.tr = f.tr ∧
      (∀ x, x ∈ g.finals ↔ x ∈ f.finals ∨ ∃ q ∈ l, x = q + n) := by
  induction l generalizing f with
  | nil => simp
  | cons d l ih =>
    obtain ⟨h1, h2, h3, h4, h5⟩ := ih (f.setFinal (d + n) true)
    refine ⟨h1, h2, h3, h4, ?_⟩
    intro x
    rw [List.foldl_cons, h5]
    simp only [setFinal, if_true, Finset.mem_insert, List.mem_cons, exists_eq_or_imp]
    tauto

theorem concat_spec {f rhs : Fsm} (h : f.WF) (hc : f.Coh) (h2 : rhs.WF) (hc2 : rhs.Coh) :
    (f.concat rhs).size = f.size + rhs.size ∧ (f.concat rhs).initial = f.initial ∧ (f.concat rhs).Raw ∧
    (∀ x, x ∈ (f.concat rhs).finals ↔ f.size ≤ x ∧ x - f.size ∈ rhs.finals) ∧
    (∀ q c p, (f.concat rhs).Edge q c p ↔ f.Edge q c p ∨
      (f.size ≤ q ∧ f.size ≤ p ∧ rhs.Edge (q - f.size) c (p - f.size)) ∨
      (q ∈ f.finals ∧ f.size ≤ p ∧ rhs.Edge rhs.initial c (p - f.size))) ∧
    (f.concat rhs).WF := by
  have hg := WF.import_ h hc h2 hc2
  set g := f.import_ rhs with hgdef
  set l := rowEdges (g.tr (f.size + rhs.initial)) with hldef
  set g1 := l.foldl (fun h e => h.connectFinal e.2 e.1) g with hg1
  obtain ⟨e1, e2, e3, e4⟩ := foldl_cf_fields l g
  have hl : ∀ c p, (c, p) ∈ l ↔ f.size ≤ p ∧ rhs.Edge rhs.initial c (p - f.size) := by
    intro c p
    rw [hldef, mem_rowEdges]
    have hE := import_edge h hc h2 hc2 (f.size + rhs.initial) c p
    rw [edge_iff, key_raw (import_raw f rhs)] at hE
    change c < 264 ∧ p ∈ g.dst (f.size + rhs.initial) c ↔ _
    rw [hgdef, hE]
    simp only [Nat.add_sub_cancel_left, Nat.le_add_right, true_and]
    constructor
    · rintro ⟨_, h1 | h1⟩
      · have := (h.edge_lt h1).1; omega
      · exact h1
    · rintro ⟨h1, h3⟩
      exact ⟨(h2.edge_lt h3).2.1, .inr ⟨h1, h3⟩⟩
  have hg1wf : g1.WF := foldl_cf_wf hg (by
    rintro ⟨c, p⟩ he
    have := (hl c p).1 he
    have h3 := h2.edge_lt this.2
    simp only [hgdef, import_size]
    exact ⟨h3.2.1, by omega⟩)
  obtain ⟨s1, s2, s3, s4, s5⟩ := foldl_setFinal (elems rhs.finals) f.size
    (clearFinal { g1 with outputs := match rhs.outputs rhs.initial with
      | none => g1.outputs
      | some m => fun p =>
          if p ∈ g1.finals ∧ ∃ q < rhs.size, (m q).isSome then
            some fun q =>
              match (g1.outputs p).bind (· q) with
              | some v => some v
              | none => if f.size ≤ q then m (q - f.size) else none
          else g1.outputs p })
  have hsize : (f.concat rhs).size = f.size + rhs.size := by
    refine Eq.trans s1 ?_
    exact e1
  have hinit : (f.concat rhs).initial = f.initial := s2.trans e2
  have hlet : (f.concat rhs).letters = Partition.empty := s3.trans e4
  have htr : (f.concat rhs).tr = g1.tr := s4
  have hfin : ∀ x, x ∈ (f.concat rhs).finals ↔ f.size ≤ x ∧ x - f.size ∈ rhs.finals := by
    intro x
    refine (s5 x).trans ?_
    simp only [clearFinal, Finset.notMem_empty, false_or, mem_elems]
    constructor
    · rintro ⟨q, hq, rfl⟩; exact ⟨by omega, by simpa using hq⟩
    · rintro ⟨h1, h3⟩; exact ⟨_, h3, by omega⟩
  refine ⟨hsize, hinit, hlet, hfin, ?_, ?_⟩
  · intro q c p
    have : (f.concat rhs).Edge = g1.Edge := edge_congr htr (hlet.trans e4.symm)
    rw [this, hg1, foldl_cf_edge, hgdef, import_edge h hc h2 hc2, key_raw (import_raw f rhs), import_finals, hl]
    tauto
  · refine hg1wf.congr (hsize.trans e1.symm) ?_ ?_ htr (hlet.trans e4.symm)
    · rw [hsize, hinit]; have := h.init_lt; omega
    · intro q hq
      rw [hsize]
      have := (hfin q).1 hq
      have := h2.fin_lt _ this.2
      omega

theorem lang_concat {f rhs : Fsm} (h : f.WF) (hc : f.Coh) (h2 : rhs.WF) (hc2 : rhs.Coh)
    (hi : rhs.initial ∉ rhs.finals) : (f.concat rhs).Lang = f.Lang * rhs.Lang := by
  obtain ⟨hsize, hinit, hraw, hfin, hE, hwf⟩ := concat_spec h hc h2 hc2
  set g := f.concat rhs
  have hR : ∀ q, q < rhs.size → g.LangFrom (q + f.size) = rhs.LangFrom q := by
    intro q hq
    refine langFrom_embed (S := (· < rhs.size)) (η := (· + f.size)) (fun _ _ _ _ e => (h2.edge_lt e).2.2) ?_ ?_ hq
    · intro q c p' hq
      rw [hE]
      constructor
      · rintro (e | ⟨_, h3, h4⟩ | ⟨h1, _, _⟩)
        · have := (h.edge_lt e).1; omega
        · exact ⟨p' - f.size, by omega, by simpa using h4⟩
        · have := h.fin_lt _ h1; omega
      · rintro ⟨p, rfl, e⟩
        exact .inr (.inl ⟨by omega, by omega, by simpa using e⟩)
    · intro q hq
      rw [hfin]; simp
  have hRun : ∀ {q w p}, Run f.Edge q w p → Run g.Edge q w p :=
    fun hr => hr.mono fun a c b e => (hE _ _ _).2 (.inl e)
  ext w
  rw [mem_lang, hinit, Language.mem_mul]
  constructor
  · rintro ⟨p, hp, hr⟩
    have key : ∀ {q w p}, Run g.Edge q w p → q < f.size → p ∈ g.finals →
        ∃ u v, w = u ++ v ∧ (∃ r ∈ f.finals, Run f.Edge q u r) ∧ v ∈ rhs.Lang := by
      intro q w p hr
      induction hr with
      | refl q => intro h1 h2; have := (hfin q).1 h2; omega
      | @eps q q' w p e h' ih =>
        intro hq hp
        rcases (hE _ _ _).1 e with e | ⟨h1, _⟩ | ⟨h1, h3, h4⟩
        · obtain ⟨u, v, hw, ⟨r, hr, hrun⟩, hv⟩ := ih (h.edge_lt e).2.2 hp
          exact ⟨u, v, hw, ⟨r, hr, .eps e hrun⟩, hv⟩
        · omega
        · refine ⟨[], w, rfl, ⟨q, h1, .refl _⟩, ?_⟩
          have hq' := (h2.edge_lt h4).2.2
          have : w ∈ rhs.LangFrom (q' - f.size) := by
            rw [← hR _ hq', Nat.sub_add_cancel h3]; exact ⟨p, hp, h'⟩
          obtain ⟨r, hr, hrun⟩ := this
          exact ⟨r, hr, .eps h4 hrun⟩
      | @step q c q' w p hc e h' ih =>
        intro hq hp
        rcases (hE _ _ _).1 e with e | ⟨h1, _⟩ | ⟨h1, h3, h4⟩
        · obtain ⟨u, v, hw, ⟨r, hr, hrun⟩, hv⟩ := ih (h.edge_lt e).2.2 hp
          exact ⟨c :: u, v, by simp [hw], ⟨r, hr, .step hc e hrun⟩, hv⟩
        · omega
        · refine ⟨[], c :: w, rfl, ⟨q, h1, .refl _⟩, ?_⟩
          have hq' := (h2.edge_lt h4).2.2
          have : w ∈ rhs.LangFrom (q' - f.size) := by
            rw [← hR _ hq', Nat.sub_add_cancel h3]; exact ⟨p, hp, h'⟩
          obtain ⟨r, hr, hrun⟩ := this
          exact ⟨r, hr, .step hc h4 hrun⟩
    obtain ⟨u, v, hw, hu, hv⟩ := key hr h.init_lt hp
    exact ⟨u, hu, v, hv, hw.symm⟩
  · rintro ⟨u, ⟨r, hr, hrun⟩, v, ⟨r', hr', hrun'⟩, rfl⟩
    have tail : ∀ {q'}, q' < rhs.size → ∀ {w}, Run rhs.Edge q' w r' → ∃ p ∈ g.finals, Run g.Edge (q' + f.size) w p := by
      intro q' hq' w hw
      have : w ∈ rhs.LangFrom q' := ⟨r', hr', hw⟩
      rw [← hR q' hq'] at this
      exact this
    cases hrun' with
    | refl => exact absurd hr' hi
    | eps e h' =>
      obtain ⟨p, hp, hrp⟩ := tail (h2.edge_lt e).2.2 h'
      exact ⟨p, hp, (hRun hrun).trans (.eps ((hE _ _ _).2 (.inr (.inr ⟨hr, by omega, by simpa using e⟩))) hrp)⟩
    | step hc e h' =>
      obtain ⟨p, hp, hrp⟩ := tail (h2.edge_lt e).2.2 h'
      exact ⟨p, hp, (hRun hrun).trans (.step hc ((hE _ _ _).2 (.inr (.inr ⟨hr, by omega, by simpa using e⟩))) hrp)⟩

theorem WF.concat {f rhs : Fsm} (h : f.WF) (hc : f.Coh) (h2 : rhs.WF) (hc2 : rhs.Coh) : (f.concat rhs).WF :=
  (concat_spec h hc h2 hc2).2.2.2.2.2

theorem concat_raw {f rhs : Fsm} (h : f.WF) (hc : f.Coh) (h2 : rhs.WF) (hc2 : rhs.Coh) : (f.concat rhs).Raw :=
  (concat_spec h hc h2 hc2).2.2.1

/-- The sum never has a final initial state. -/
theorem concat_initial_not_final {f rhs : Fsm} (h : f.WF) (hc : f.Coh) (h2 : rhs.WF) (hc2 : rhs.Coh) :
    (f.concat rhs).initial ∉ (f.concat rhs).finals := by
  obtain ⟨-, hinit, -, hfin, -, -⟩ := concat_spec h hc h2 hc2
  rw [hfin, hinit]
  have := h.init_lt
  omega

theorem init_raw : Fsm.init.Raw := rfl

theorem power_spec {f : Fsm} (h : f.WF) (hc : f.Coh) (hi : f.initial ∉ f.finals) (n : Nat) :
    (f.power n).WF ∧ (f.power n).Raw ∧ (f.power n).Lang = f.Lang ^ n := by
  induction n with
  | zero => exact ⟨WF.init, init_raw, by rw [pow_zero]; exact lang_init⟩
  | succ n ih =>
    obtain ⟨h1, h2, h3⟩ := ih
    refine ⟨h1.concat h2.coh h hc, concat_raw h1 h2.coh h hc, ?_⟩
    rw [pow_succ, ← h3]
    exact lang_concat h1 h2.coh h hc hi

/-! ### Union -/

/-- What the "is already an alternative" hint promises. -/
def AltInv (f : Fsm) : Prop :=
  f.isAlt = true → f.initial ∉ f.finals ∧ (∀ q c, ¬ f.Edge q c f.initial) ∧ (∀ c p, f.Edge f.initial c p → c = 257)

theorem AltInv.of_false {f : Fsm} (h : f.isAlt = false) : f.AltInv := by
  intro h'; rw [h] at h'; cases h'

theorem foldl_insert_mem (l : List Nat) (n : Nat) (s : Finset Nat) (x : Nat) :
    x ∈ l.foldl (fun s q => insert (q + n) s) s ↔ x ∈ s ∨ ∃ q ∈ l, x = q + n := by
  induction l generalizing s with
  | nil => simp
  | cons d l ih =>
    rw [List.foldl_cons, ih]
    simp only [Finset.mem_insert, List.mem_cons, exists_eq_or_imp]
    tauto

/-- The loop of the fourth case of `operator |=`. -/
theorem alt4_spec (l : List Nat) (n r : Nat) (g : Fsm) (hne : g.initial ≠ r + n) (hraw : g.Raw) :
    let h := l.foldl (fun h p => (h.connect h.initial (p + n) Epsilon).disconnect (r + n) (p + n) Epsilon) g
    h.size = g.size ∧ h.initial = g.initial ∧ h.finals = g.finals ∧ h.letters = g.letters ∧
    (∀ q c p, h.Edge q c p ↔
      (g.Edge q c p ∧ ¬ (q = r + n ∧ c = 257 ∧ ∃ x ∈ l, p = x + n)) ∨
      (q = g.initial ∧ c = 257 ∧ ∃ x ∈ l, p = x + n)) ∧ (g.WF → (∀ x ∈ l, x + n < g.size) → h.WF) := by
  induction l generalizing g with
  | nil => simp
  | cons d l ih =>
    set g1 := (g.connect g.initial (d + n) Epsilon).disconnect (r + n) (d + n) Epsilon with hg1
    obtain ⟨h1, h2, h3, h4, h5, h6⟩ := ih g1 hne hraw
    refine ⟨h1, h2, h3, h4, ?_, ?_⟩
    · intro q c p
      rw [List.foldl_cons, h5]
      have hE1 : g1.Edge q c p ↔ (g.Edge q c p ∧ ¬ (q = r + n ∧ c = 257 ∧ p = d + n)) ∨
          (q = g.initial ∧ c = 257 ∧ p = d + n) := by
        have hraw1 : g1.Raw := hraw
        rw [edge_iff, edge_iff, key_raw hraw1, key_raw hraw]
        by_cases hq : q = r + n ∧ c = 257
        · obtain ⟨rfl, rfl⟩ := hq
          have : g1.dst (r + n) 257 = (g.dst (r + n) 257).erase (d + n) := by
            simp only [hg1, dst, disconnect, connect]
            rw [if_pos (by simp), if_neg (by simp [Ne.symm hne])]
            cases g.tr (r + n) 257 <;> simp
          rw [this]
          simp only [Finset.mem_erase, true_and, Ne.symm hne, false_and, or_false]
          tauto
        · have : g1.dst q c = if q = g.initial ∧ c = 257 then insert (d + n) (g.dst g.initial 257) else g.dst q c := by
            simp only [hg1, dst, disconnect, connect]
            rw [if_neg hq]
            split <;> rfl
          rw [this]
          split
          · rename_i h7; obtain ⟨rfl, rfl⟩ := h7
            simp only [Finset.mem_insert, true_and]
            tauto
          · tauto
      rw [hE1]
      have h7 : g1.initial = g.initial := rfl
      rw [h7]
      simp only [List.mem_cons, exists_eq_or_imp]
      constructor
      · rintro (⟨⟨ha, hb⟩ | ⟨ha, hb, hd⟩, he⟩ | ⟨ha, hb, hd⟩)
        · left
          refine ⟨ha, ?_⟩
          rintro ⟨x1, x2, x3 | x3⟩
          · exact hb ⟨x1, x2, x3⟩
          · exact he ⟨x1, x2, x3⟩
        · right; exact ⟨ha, hb, .inl hd⟩
        · right; exact ⟨ha, hb, .inr hd⟩
      · rintro (⟨ha, hb⟩ | ⟨ha, hb, hd | hd⟩)
        · left
          exact ⟨.inl ⟨ha, fun x => hb ⟨x.1, x.2.1, .inl x.2.2⟩⟩, fun x => hb ⟨x.1, x.2.1, .inr x.2.2⟩⟩
        · left; refine ⟨.inr ⟨ha, hb, hd⟩, ?_⟩
          rintro ⟨hq, _⟩; exact hne (ha ▸ hq)
        · right; exact ⟨ha, hb, hd⟩
    · intro hw hl
      refine h6 ?_ (fun x hx => hl x (by simp [hx]))
      have hw1 : (g.connect g.initial (d + n) Epsilon).WF :=
        hw.connect hw.init_lt (hl d (by simp)) (by decide)
      refine ⟨hw1.init_lt, hw1.fin_lt, ?_, hw1.let_wf, hw1.let_lt⟩
      intro q c S hS
      simp only [hg1, disconnect] at hS
      split at hS
      · rename_i h7; obtain ⟨rfl, rfl⟩ := h7
        rw [Option.map_eq_some_iff] at hS
        obtain ⟨S', hS', rfl⟩ := hS
        have := hw1.tr_lt _ _ _ hS'
        exact ⟨this.1, this.2.1, fun p hp => this.2.2 p (Finset.mem_of_mem_erase hp)⟩
      · exact hw1.tr_lt _ _ _ hS

/-- The automaton `|=` works on after the import and the merge of final states. -/
def unionBase (f rhs : Fsm) : Fsm :=
  { f.import_ rhs with finals := (elems rhs.finals).foldl (fun s q => insert (q + f.size) s) f.finals }

theorem unionBase_spec {f rhs : Fsm} (h : f.WF) (hc : f.Coh) (h2 : rhs.WF) (hc2 : rhs.Coh) :
    (unionBase f rhs).WF ∧ (unionBase f rhs).Raw ∧ (unionBase f rhs).size = f.size + rhs.size ∧
    (unionBase f rhs).initial = f.initial ∧
    (∀ x, x ∈ (unionBase f rhs).finals ↔ x ∈ f.finals ∨ (f.size ≤ x ∧ x - f.size ∈ rhs.finals)) ∧
    (∀ q c p, (unionBase f rhs).Edge q c p ↔
      f.Edge q c p ∨ (f.size ≤ q ∧ f.size ≤ p ∧ rhs.Edge (q - f.size) c (p - f.size))) := by
  have hfin : ∀ x, x ∈ (unionBase f rhs).finals ↔ x ∈ f.finals ∨ (f.size ≤ x ∧ x - f.size ∈ rhs.finals) := by
    intro x
    refine (foldl_insert_mem _ _ _ x).trans ?_
    simp only [mem_elems]
    constructor
    · rintro (h | ⟨q, hq, rfl⟩)
      · exact .inl h
      · exact .inr ⟨by omega, by simpa using hq⟩
    · rintro (h | ⟨h1, h3⟩)
      · exact .inl h
      · exact .inr ⟨_, h3, by omega⟩
  have hw := WF.import_ h hc h2 hc2
  refine ⟨?_, rfl, rfl, rfl, hfin, ?_⟩
  · refine hw.congr rfl hw.init_lt ?_ rfl rfl
    intro q hq
    rcases (hfin q).1 hq with h1 | ⟨_, h3⟩
    · have := h.fin_lt q h1; change q < f.size + rhs.size; omega
    · have := h2.fin_lt _ h3; change q < f.size + rhs.size; omega
  · intro q c p
    rw [show (unionBase f rhs).Edge = (f.import_ rhs).Edge from edge_congr rfl rfl]
    exact import_edge h hc h2 hc2 q c p

/-- Everything about the result of `|=` that the language and the invariants depend on. -/
structure UnionShape (f rhs g : Fsm) : Prop where
  wf : g.WF
  raw : g.Raw
  isAlt : g.isAlt = true
  init_not_fin : g.initial ∉ g.finals
  init_noin : ∀ q c, ¬ g.Edge q c g.initial
  init_eps : ∀ c p, g.Edge g.initial c p → c = 257
  lang : g.Lang = f.Lang + rhs.Lang

theorem union_shape {f rhs : Fsm} (h : f.WF) (hc : f.Coh) (ha : f.AltInv) (h2 : rhs.WF) (hc2 : rhs.Coh)
    (ha2 : rhs.AltInv) : UnionShape f rhs (f.union rhs) := by
  obtain ⟨bw, braw, bsize, binit, bfin, bE⟩ := unionBase_spec h hc h2 hc2
  have hi := h.init_lt
  have hi2 := h2.init_lt
  have hfl := h.fin_lt
  have hfl2 := h2.fin_lt
  set b := unionBase f rhs with hb
  have lt1 : ∀ {q c p}, f.Edge q c p → q < f.size ∧ p < f.size := fun e => ⟨(h.edge_lt e).1, (h.edge_lt e).2.2⟩
  have lt2 : ∀ {q c p}, rhs.Edge q c p → q < rhs.size ∧ p < rhs.size :=
    fun e => ⟨(h2.edge_lt e).1, (h2.edge_lt e).2.2⟩
  -- a copy of a closed part of the left operand inside any automaton with the right edges
  have embL : ∀ (g : Fsm) (S : Nat → Prop), (∀ q c p, S q → f.Edge q c p → S p) → (∀ q, S q → q < f.size) →
      (∀ q c p, S q → (g.Edge q c p ↔ b.Edge q c p)) → (∀ q, S q → (q ∈ g.finals ↔ q ∈ b.finals)) →
      ∀ q, S q → g.LangFrom q = f.LangFrom q := by
    intro g S hS hlt hE hF q hq
    refine langFrom_embed (S := S) (η := id) hS ?_ ?_ hq
    · intro q c p' hq
      have := hlt q hq
      rw [id, hE q c p' hq, bE]
      simp only [id, exists_eq_left']
      constructor
      · rintro (h | h)
        · exact h
        · omega
      · exact .inl
    · intro q hq
      have := hlt q hq
      rw [id, hF q hq, bfin]
      constructor
      · rintro (h | h)
        · exact h
        · omega
      · exact .inl
  have embR : ∀ (g : Fsm) (S : Nat → Prop), (∀ q c p, S q → rhs.Edge q c p → S p) → (∀ q, S q → q < rhs.size) →
      (∀ q c p, S q → (g.Edge (q + f.size) c p ↔ b.Edge (q + f.size) c p)) →
      (∀ q, S q → (q + f.size ∈ g.finals ↔ q + f.size ∈ b.finals)) →
      ∀ q, S q → g.LangFrom (q + f.size) = rhs.LangFrom q := by
    intro g S hS hlt hE hF q hq
    refine langFrom_embed (S := S) (η := (· + f.size)) hS ?_ ?_ hq
    · intro q c p' hq
      rw [hE q c p' hq, bE]
      constructor
      · rintro (h | ⟨_, h3, h4⟩)
        · have := (lt1 h).1; omega
        · exact ⟨p' - f.size, by omega, by simpa using h4⟩
      · rintro ⟨p, rfl, e⟩
        exact .inr ⟨by omega, by omega, by simpa using e⟩
    · intro q hq
      rw [hF q hq, bfin]
      constructor
      · rintro (h | h)
        · have := hfl _ h; omega
        · simpa using h.2
      · intro h; exact .inr ⟨by omega, by simpa using h⟩
  unfold union
  by_cases a1 : f.isAlt = true <;> by_cases a2 : rhs.isAlt = true
  · -- both are alternatives
    obtain ⟨n1, n2, n3⟩ := ha a1
    obtain ⟨m1, m2, m3⟩ := ha2 a2
    simp only [a1, a2, Bool.not_true, Bool.and_self, Bool.false_and, Bool.and_false, Bool.false_eq_true, if_false]
    set l := elems (rhs.destinations rhs.initial Epsilon) with hl
    have hml : ∀ x, x ∈ l ↔ rhs.Edge rhs.initial 257 x := by
      intro x
      rw [hl, mem_elems, edge_iff, key_eps]
      simp [destinations, translate]
    obtain ⟨k1, k2, k3, k4, k5, k6⟩ := alt4_spec l f.size rhs.initial b (by rw [binit]; omega) braw
    have hwf := k6 bw (by
      intro x hx
      have := (lt2 ((hml x).1 hx)).2
      rw [bsize]; omega)
    change UnionShape f rhs
      { l.foldl (fun h p => (h.connect h.initial (p + f.size) Epsilon).disconnect (rhs.initial + f.size)
          (p + f.size) Epsilon) b with determined := false, isAlt := true }
    set g0 := l.foldl (fun h p => (h.connect h.initial (p + f.size) Epsilon).disconnect (rhs.initial + f.size)
          (p + f.size) Epsilon) b
    set g : Fsm := { g0 with determined := false, isAlt := true } with hg
    have gE : ∀ q c p, g.Edge q c p ↔ (b.Edge q c p ∧ ¬ (q = rhs.initial + f.size ∧ c = 257 ∧ ∃ x ∈ l, p = x + f.size)) ∨
      (q = f.initial ∧ c = 257 ∧ ∃ x ∈ l, p = x + f.size) := by
      intro q c p
      rw [show g.Edge = g0.Edge from edge_congr rfl rfl, k5, binit]
    have gF : g.finals = b.finals := k3
    have gI : g.initial = f.initial := k2.trans binit
    have noin : ∀ q c, ¬ g.Edge q c f.initial := by
      intro q c e
      rcases (gE _ _ _).1 e with ⟨e, _⟩ | ⟨_, _, x, _, hx⟩
      · rcases (bE _ _ _).1 e with e | ⟨_, h3, _⟩
        · exact n2 _ _ e
        · omega
      · omega
    have ieps : ∀ c p, g.Edge f.initial c p → c = 257 := by
      intro c p e
      rcases (gE _ _ _).1 e with ⟨e, _⟩ | ⟨_, h, _⟩
      · rcases (bE _ _ _).1 e with e | ⟨h3, _, _⟩
        · exact n3 _ _ e
        · omega
      · exact h
    have inf : f.initial ∉ g.finals := by
      rw [gF, bfin]
      rintro (h | h)
      · exact n1 h
      · omega
    refine ⟨hwf.congr rfl hwf.init_lt hwf.fin_lt rfl rfl, k4.trans braw, rfl, by rw [gI]; exact inf,
      by rw [gI]; exact noin, by rw [gI]; exact ieps, ?_⟩
    have hL := embL g (fun q => q < f.size ∧ q ≠ f.initial)
      (fun q c p _ e => ⟨(lt1 e).2, by rintro rfl; exact n2 _ _ e⟩) (fun q hq => hq.1)
      (by
        intro q c p hq
        rw [gE]
        constructor
        · rintro (⟨e, _⟩ | ⟨h, _⟩)
          · exact e
          · exact absurd h hq.2
        · intro e; exact .inl ⟨e, by rintro ⟨h, _⟩; have := hq.1; omega⟩)
      (by intro q _; rw [gF])
    have hR := embR g (fun q => q < rhs.size ∧ q ≠ rhs.initial)
      (fun q c p _ e => ⟨(lt2 e).2, by rintro rfl; exact m2 _ _ e⟩) (fun q hq => hq.1)
      (by
        intro q c p hq
        rw [gE]
        constructor
        · rintro (⟨e, _⟩ | ⟨h, _⟩)
          · exact e
          · omega
        · intro e; exact .inl ⟨e, by rintro ⟨h, _⟩; have := hq.2; omega⟩)
      (by intro q _; rw [gF])
    ext w
    rw [Language.mem_add]
    unfold Lang
    rw [gI, mem_langFrom_epsOnly inf ieps, mem_langFrom_epsOnly n1 n3, mem_langFrom_epsOnly m1 m3]
    constructor
    · rintro ⟨p, e, hw⟩
      rcases (gE _ _ _).1 e with ⟨e, _⟩ | ⟨_, _, x, hx, rfl⟩
      · rcases (bE _ _ _).1 e with e | ⟨h3, _, _⟩
        · left
          rw [hL p ⟨(lt1 e).2, by rintro rfl; exact n2 _ _ e⟩] at hw
          exact ⟨p, e, hw⟩
        · omega
      · right
        have e := (hml x).1 hx
        rw [hR x ⟨(lt2 e).2, by rintro rfl; exact m2 _ _ e⟩] at hw
        exact ⟨x, e, hw⟩
    · rintro (⟨p, e, hw⟩ | ⟨x, e, hw⟩)
      · refine ⟨p, (gE _ _ _).2 (.inl ⟨(bE _ _ _).2 (.inl e), by rintro ⟨h, _⟩; omega⟩), ?_⟩
        rw [hL p ⟨(lt1 e).2, by rintro rfl; exact n2 _ _ e⟩]; exact hw
      · refine ⟨x + f.size, (gE _ _ _).2 (.inr ⟨rfl, rfl, x, (hml x).2 e, rfl⟩), ?_⟩
        rw [hR x ⟨(lt2 e).2, by rintro rfl; exact m2 _ _ e⟩]; exact hw
  · -- left is an alternative
    obtain ⟨n1, n2, n3⟩ := ha a1
    simp only [Bool.not_eq_true] at a2
    simp only [a1, a2, Bool.not_true, Bool.not_false, Bool.and_self, Bool.false_and, Bool.false_eq_true, if_false,
      if_true]
    change UnionShape f rhs { b.connect b.initial (f.size + rhs.initial) Epsilon with
      determined := false, isAlt := true }
    set g : Fsm := { b.connect b.initial (f.size + rhs.initial) Epsilon with
      determined := false, isAlt := true } with hg
    have hwf : (b.connect b.initial (f.size + rhs.initial) Epsilon).WF :=
      bw.connect bw.init_lt (by rw [bsize]; omega) (by decide)
    have gE : ∀ q c p, g.Edge q c p ↔ b.Edge q c p ∨ (q = f.initial ∧ p = f.size + rhs.initial ∧ c = 257) := by
      intro q c p
      rw [show g.Edge = (b.connect b.initial (f.size + rhs.initial) Epsilon).Edge from edge_congr rfl rfl,
        edge_connect, key_raw braw, binit]
    have gF : g.finals = b.finals := rfl
    have gI : g.initial = f.initial := binit
    have noin : ∀ q c, ¬ g.Edge q c f.initial := by
      intro q c e
      rcases (gE _ _ _).1 e with e | ⟨_, hx, _⟩
      · rcases (bE _ _ _).1 e with e | ⟨_, h3, _⟩
        · exact n2 _ _ e
        · omega
      · omega
    have ieps : ∀ c p, g.Edge f.initial c p → c = 257 := by
      intro c p e
      rcases (gE _ _ _).1 e with e | ⟨_, _, h⟩
      · rcases (bE _ _ _).1 e with e | ⟨h3, _, _⟩
        · exact n3 _ _ e
        · omega
      · exact h
    have inf : f.initial ∉ g.finals := by
      rw [gF, bfin]
      rintro (h | h)
      · exact n1 h
      · omega
    refine ⟨hwf.congr rfl hwf.init_lt hwf.fin_lt rfl rfl, braw, rfl, by rw [gI]; exact inf,
      by rw [gI]; exact noin, by rw [gI]; exact ieps, ?_⟩
    have hL := embL g (fun q => q < f.size ∧ q ≠ f.initial)
      (fun q c p _ e => ⟨(lt1 e).2, by rintro rfl; exact n2 _ _ e⟩) (fun q hq => hq.1)
      (by
        intro q c p hq
        rw [gE]
        constructor
        · rintro (e | ⟨h, _⟩)
          · exact e
          · exact absurd h hq.2
        · intro e; exact .inl e)
      (by intro q _; rw [gF])
    have hR := embR g (fun q => q < rhs.size)
      (fun q c p _ e => (lt2 e).2) (fun q hq => hq)
      (by
        intro q c p hq
        rw [gE]
        constructor
        · rintro (e | ⟨h, _⟩)
          · exact e
          · omega
        · intro e; exact .inl e)
      (by intro q _; rw [gF])
    ext w
    rw [Language.mem_add]
    unfold Lang
    rw [gI, mem_langFrom_epsOnly inf ieps, mem_langFrom_epsOnly n1 n3]
    constructor
    · rintro ⟨p, e, hw⟩
      rcases (gE _ _ _).1 e with e | ⟨_, rfl, _⟩
      · rcases (bE _ _ _).1 e with e | ⟨h3, _, _⟩
        · left
          rw [hL p ⟨(lt1 e).2, by rintro rfl; exact n2 _ _ e⟩] at hw
          exact ⟨p, e, hw⟩
        · omega
      · right
        rw [Nat.add_comm, hR _ hi2] at hw
        exact hw
    · rintro (⟨p, e, hw⟩ | hw)
      · refine ⟨p, (gE _ _ _).2 (.inl ((bE _ _ _).2 (.inl e))), ?_⟩
        rw [hL p ⟨(lt1 e).2, by rintro rfl; exact n2 _ _ e⟩]; exact hw
      · refine ⟨f.size + rhs.initial, (gE _ _ _).2 (.inr ⟨rfl, rfl, rfl⟩), ?_⟩
        rw [Nat.add_comm, hR _ hi2]; exact hw
  · -- right is an alternative
    obtain ⟨m1, m2, m3⟩ := ha2 a2
    simp only [Bool.not_eq_true] at a1
    simp only [a1, a2, Bool.not_true, Bool.not_false, Bool.and_self, Bool.false_and, Bool.and_false,
      Bool.false_eq_true, if_false, if_true]
    change UnionShape f rhs { b.connect (f.size + rhs.initial) b.initial Epsilon with
      initial := rhs.initial + f.size, determined := false, isAlt := true }
    set g : Fsm := { b.connect (f.size + rhs.initial) b.initial Epsilon with
      initial := rhs.initial + f.size, determined := false, isAlt := true } with hg
    have hwf : (b.connect (f.size + rhs.initial) b.initial Epsilon).WF :=
      bw.connect (by rw [bsize]; omega) bw.init_lt (by decide)
    have gE : ∀ q c p, g.Edge q c p ↔ b.Edge q c p ∨ (q = f.size + rhs.initial ∧ p = f.initial ∧ c = 257) := by
      intro q c p
      rw [show g.Edge = (b.connect (f.size + rhs.initial) b.initial Epsilon).Edge from edge_congr rfl rfl,
        edge_connect, key_raw braw, binit]
    have gF : g.finals = b.finals := rfl
    have gI : g.initial = rhs.initial + f.size := rfl
    have noin : ∀ q c, ¬ g.Edge q c (rhs.initial + f.size) := by
      intro q c e
      rcases (gE _ _ _).1 e with e | ⟨_, hx, _⟩
      · rcases (bE _ _ _).1 e with e | ⟨_, h3, h4⟩
        · have := (lt1 e).2; omega
        · simp only [Nat.add_sub_cancel] at h4; exact m2 _ _ h4
      · omega
    have ieps : ∀ c p, g.Edge (rhs.initial + f.size) c p → c = 257 := by
      intro c p e
      rcases (gE _ _ _).1 e with e | ⟨_, _, h⟩
      · rcases (bE _ _ _).1 e with e | ⟨_, _, h4⟩
        · have := (lt1 e).1; omega
        · simp only [Nat.add_sub_cancel] at h4; exact m3 _ _ h4
      · exact h
    have inf : rhs.initial + f.size ∉ g.finals := by
      rw [gF, bfin]
      rintro (h | h)
      · have := hfl _ h; omega
      · simp only [Nat.add_sub_cancel] at h; exact m1 h.2
    refine ⟨hwf.congr rfl ?_ hwf.fin_lt rfl rfl, braw, rfl, inf, noin, ieps, ?_⟩
    · change rhs.initial + f.size < b.size; rw [bsize]; omega
    have hL := embL g (fun q => q < f.size)
      (fun q c p _ e => (lt1 e).2) (fun q hq => hq)
      (by
        intro q c p hq
        rw [gE]
        constructor
        · rintro (e | ⟨h, _⟩)
          · exact e
          · omega
        · intro e; exact .inl e)
      (by intro q _; rw [gF])
    have hR := embR g (fun q => q < rhs.size ∧ q ≠ rhs.initial)
      (fun q c p _ e => ⟨(lt2 e).2, by rintro rfl; exact m2 _ _ e⟩) (fun q hq => hq.1)
      (by
        intro q c p hq
        rw [gE]
        constructor
        · rintro (e | ⟨h, _⟩)
          · exact e
          · have := hq.2; omega
        · intro e; exact .inl e)
      (by intro q _; rw [gF])
    ext w
    rw [Language.mem_add]
    unfold Lang
    rw [gI, mem_langFrom_epsOnly inf ieps, mem_langFrom_epsOnly m1 m3]
    constructor
    · rintro ⟨p, e, hw⟩
      rcases (gE _ _ _).1 e with e | ⟨_, rfl, _⟩
      · rcases (bE _ _ _).1 e with e | ⟨_, h3, h4⟩
        · have := (lt1 e).1; omega
        · right
          simp only [Nat.add_sub_cancel] at h4
          have := hR (p - f.size) ⟨(lt2 h4).2, fun h => m2 _ _ (h ▸ h4)⟩
          rw [Nat.sub_add_cancel h3] at this
          rw [this] at hw
          exact ⟨_, h4, hw⟩
      · left
        rw [hL _ hi] at hw
        exact hw
    · rintro (hw | ⟨p, e, hw⟩)
      · refine ⟨f.initial, (gE _ _ _).2 (.inr ⟨by omega, rfl, rfl⟩), ?_⟩
        rw [hL _ hi]; exact hw
      · refine ⟨p + f.size, (gE _ _ _).2 (.inl ((bE _ _ _).2 (.inr ⟨by omega, by omega, by simpa using e⟩))), ?_⟩
        rw [hR p ⟨(lt2 e).2, by rintro rfl; exact m2 _ _ e⟩]; exact hw
  · -- neither is
    simp only [Bool.not_eq_true] at a1 a2
    simp only [a1, a2, Bool.not_false, Bool.and_self, if_true]
    set g0 := ((b.resize (b.size + 1)).connect b.size b.initial Epsilon).connect b.size (f.size + rhs.initial) Epsilon
      with hg0
    change UnionShape f rhs { g0 with initial := b.size, determined := false, isAlt := true }
    set g : Fsm := { g0 with initial := b.size, determined := false, isAlt := true } with hg
    have hwf : g0.WF := by
      refine ((bw.resize (by omega)).connect ?_ ?_ ?_).connect ?_ ?_ ?_
      · change b.size < b.size + 1; omega
      · change b.initial < b.size + 1; rw [bsize, binit]; omega
      · decide
      · change b.size < b.size + 1; omega
      · change f.size + rhs.initial < b.size + 1; rw [bsize]; omega
      · decide
    have gE : ∀ q c p, g.Edge q c p ↔ b.Edge q c p ∨
        (q = b.size ∧ c = 257 ∧ (p = f.initial ∨ p = f.size + rhs.initial)) := by
      intro q c p
      rw [show g.Edge = g0.Edge from edge_congr rfl rfl, hg0,
        edge_connect, edge_connect, resize_edge bw (by omega)]
      rw [key_raw (show (((b.resize (b.size + 1)).connect b.size b.initial Epsilon)).Raw from braw),
        key_raw (show ((b.resize (b.size + 1))).Raw from braw), binit]
      tauto
    have gF : g.finals = b.finals := rfl
    have gI : g.initial = b.size := rfl
    have noin : ∀ q c, ¬ g.Edge q c b.size := by
      intro q c e
      rcases (gE _ _ _).1 e with e | ⟨_, _, hx⟩
      · have := (bw.edge_lt e).2.2; omega
      · omega
    have ieps : ∀ c p, g.Edge b.size c p → c = 257 := by
      intro c p e
      rcases (gE _ _ _).1 e with e | ⟨_, h, _⟩
      · have := (bw.edge_lt e).1; omega
      · exact h
    have inf : b.size ∉ g.finals := by
      intro h
      have := bw.fin_lt _ h
      omega
    refine ⟨hwf.congr rfl ?_ hwf.fin_lt rfl rfl, braw, rfl, inf, noin, ieps, ?_⟩
    · change b.size < b.size + 1; omega
    have hL := embL g (fun q => q < f.size)
      (fun q c p _ e => (lt1 e).2) (fun q hq => hq)
      (by
        intro q c p hq
        rw [gE]
        constructor
        · rintro (e | ⟨h, _⟩)
          · exact e
          · omega
        · intro e; exact .inl e)
      (by intro q _; rw [gF])
    have hR := embR g (fun q => q < rhs.size)
      (fun q c p _ e => (lt2 e).2) (fun q hq => hq)
      (by
        intro q c p hq
        rw [gE]
        constructor
        · rintro (e | ⟨h, _⟩)
          · exact e
          · omega
        · intro e; exact .inl e)
      (by intro q _; rw [gF])
    ext w
    rw [Language.mem_add]
    unfold Lang
    rw [gI, mem_langFrom_epsOnly inf ieps]
    constructor
    · rintro ⟨p, e, hw⟩
      rcases (gE _ _ _).1 e with e | ⟨_, _, rfl | rfl⟩
      · have := (bw.edge_lt e).1; omega
      · left; rw [hL _ hi] at hw; exact hw
      · right; rw [Nat.add_comm, hR _ hi2] at hw; exact hw
    · rintro (hw | hw)
      · exact ⟨f.initial, (gE _ _ _).2 (.inr ⟨rfl, rfl, .inl rfl⟩), by rw [hL _ hi]; exact hw⟩
      · exact ⟨f.size + rhs.initial, (gE _ _ _).2 (.inr ⟨rfl, rfl, .inr rfl⟩), by
          rw [Nat.add_comm, hR _ hi2]; exact hw⟩

theorem UnionShape.altInv {f rhs g : Fsm} (h : UnionShape f rhs g) : g.AltInv :=
  fun _ => ⟨h.init_not_fin, h.init_noin, h.init_eps⟩

end Fsm
end Pire
