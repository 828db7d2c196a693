import Verif.Model.HalfFinal
import Verif.Spec.HalfFinal
import Verif.Proofs.Pattern
import Verif.Proofs.Tags
import Verif.Proofs.Kept
import Verif.Proofs.ScannerSem

/-!
# The languages of half-final automata
-/

namespace Pire
open Spec
namespace Fsm

/-- Two automata that differ in nothing but transitions, tags and hints. -/
structure SameShape (f g : Fsm) : Prop where
  size : g.size = f.size
  initial : g.initial = f.initial
  finals : g.finals = f.finals
  letters : g.letters = f.letters
  sparsed : g.sparsed = f.sparsed
  isAlt : f.isAlt = false → g.isAlt = false

theorem SameShape.refl (f : Fsm) : SameShape f f := ⟨rfl, rfl, rfl, rfl, rfl, id⟩

theorem SameShape.trans {f g h : Fsm} (a : SameShape f g) (b : SameShape g h) : SameShape f h :=
  ⟨b.size.trans a.size, b.initial.trans a.initial, b.finals.trans a.finals, b.letters.trans a.letters, b.sparsed.trans a.sparsed,
    fun x => b.isAlt (a.isAlt x)⟩

theorem SameShape.disconnect (f : Fsm) (q p c : Nat) : SameShape f (f.disconnect q p c) := ⟨rfl, rfl, rfl, rfl, rfl, fun _ => rfl⟩
theorem SameShape.connect (f : Fsm) (q p c : Nat) : SameShape f (f.connect q p c) := ⟨rfl, rfl, rfl, rfl, rfl, fun _ => rfl⟩
theorem SameShape.tag (f : Fsm) (t : Nat → Option Nat) : SameShape f { f with tags := t } := ⟨rfl, rfl, rfl, rfl, rfl, id⟩

theorem SameShape.foldl {β : Type} {F : Fsm → β → Fsm} (h : ∀ f x, SameShape f (F f x)) (l : List β) (f : Fsm) : SameShape f (l.foldl F f) := by
  induction l generalizing f with
  | nil => exact .refl f
  | cons x l ih => exact (h f x).trans (ih _)

theorem WF.disconnect {f : Fsm} (h : f.WF) (q p c : Nat) : (f.disconnect q p c).WF := by
  refine ⟨h.init_lt, h.fin_lt, ?_, h.let_wf, h.let_lt⟩
  intro q' c' S hS
  change (if q' = q ∧ c' = c then (f.tr q c).map (·.erase p) else f.tr q' c') = some S at hS
  split at hS
  · rename_i hq
    obtain ⟨rfl, rfl⟩ := hq
    rw [Option.map_eq_some_iff] at hS
    obtain ⟨S', hS', rfl⟩ := hS
    obtain ⟨h1, h2, h3⟩ := h.tr_lt _ _ _ hS'
    exact ⟨h1, h2, fun x hx => h3 x (Finset.mem_of_mem_erase hx)⟩
  · exact h.tr_lt _ _ _ hS

theorem disconnect_dst (f : Fsm) (q p c q' c' : Nat) :
    (f.disconnect q p c).dst q' c' = if q' = q ∧ c' = c then (f.dst q c).erase p else f.dst q' c' := by
  unfold dst
  change ((if q' = q ∧ c' = c then (f.tr q c).map (·.erase p) else f.tr q' c')).getD ∅ = _
  split
  · cases f.tr q c <;> simp
  · rfl

theorem disconnectList_dst (q c : Nat) (l : List Nat) (f : Fsm) (q' c' : Nat) :
    (l.foldl (fun f p => f.disconnect q p c) f).dst q' c' = if q' = q ∧ c' = c then f.dst q c \ l.toFinset else f.dst q' c' := by
  induction l generalizing f with
  | nil => by_cases h : q' = q ∧ c' = c
           · obtain ⟨rfl, rfl⟩ := h; simp
           · simp [h]
  | cons x l ih =>
    rw [List.foldl_cons, ih, disconnect_dst, disconnect_dst]
    by_cases h : q' = q ∧ c' = c
    · rw [if_pos h, if_pos h, if_pos ⟨rfl, rfl⟩]
      ext y
      simp only [Finset.mem_sdiff, Finset.mem_erase, List.mem_toFinset, List.mem_cons]
      tauto
    · rw [if_neg h, if_neg h, if_neg h]

end Fsm

namespace HalfFinal
open Fsm

theorem destinations_unsparsed {f : Fsm} (h : f.sparsed = false) (q c : Nat) : f.destinations q c = f.dst q c := by
  unfold destinations translate; simp [h]

/-- Disconnecting one state for the listed letters. -/
theorem cutRow_spec (q : Nat) (cs : List Nat) (f : Fsm) (hs : f.sparsed = false) (q' c' : Nat) :
    (cs.foldl (fun f c => (elems (f.destinations q c)).foldl (fun f p => f.disconnect q p c) f) f).dst q' c' =
      if q' = q ∧ c' ∈ cs then ∅ else f.dst q' c' := by
  induction cs generalizing f with
  | nil => simp
  | cons c cs ih =>
    rw [List.foldl_cons, ih _ (by rw [(SameShape.foldl (fun f p => SameShape.disconnect f q p c) _ f).sparsed]; exact hs), disconnectList_dst,
      destinations_unsparsed hs]
    have : (f.dst q c) \ (elems (f.dst q c)).toFinset = ∅ := by
      ext y; simp [mem_elems]
    rw [this]
    by_cases h1 : q' = q ∧ c' ∈ cs
    · rw [if_pos h1, if_pos ⟨h1.1, List.mem_cons_of_mem _ h1.2⟩]
    · rw [if_neg h1]
      by_cases h2 : q' = q ∧ c' = c
      · rw [if_pos h2, if_pos ⟨h2.1, by rw [h2.2]; exact List.mem_cons_self ..⟩]
      · rw [if_neg h2, if_neg]
        rintro ⟨a, b⟩
        rcases List.mem_cons.1 b with b | b
        · exact h2 ⟨a, b⟩
        · exact h1 ⟨a, b⟩

theorem cutState_same (b : Bool) (f : Fsm) (q : Nat) : SameShape f (cutState b f q) := by
  unfold cutState
  simp only
  refine (SameShape.tag f (Function.update f.tags q (some 0))).trans ?_
  split
  · have h1 : ∀ (l : List Nat) (g : Fsm), SameShape g (l.foldl (fun f c => (elems (f.destinations q c)).foldl (fun f p => f.disconnect q p c) f) g) :=
      fun l g => SameShape.foldl (fun f c => SameShape.foldl (fun f p => SameShape.disconnect f q p c) _ f) l g
    split
    · exact h1 _ _
    · exact (h1 _ _).trans (SameShape.connect ..)
  · exact .refl _

theorem cutState_dst (b : Bool) {f : Fsm} (hw : f.WF) (hs : f.sparsed = false) (q q' c' : Nat) :
    (cutState b f q).dst q' c' = if q' = q ∧ q ∈ f.finals then (if b = false ∧ c' = 257 then {f.initial} else ∅) else f.dst q' c' := by
  unfold cutState
  simp only
  obtain ⟨g, hg⟩ : ∃ g, g = { f with tags := Function.update f.tags q (some 0) } := ⟨_, rfl⟩
  have hgd : g.dst = f.dst := by rw [hg]; rfl
  have hgs : g.sparsed = false := by rw [hg]; exact hs
  have hgi : g.initial = f.initial := by rw [hg]
  have hgf : g.isFinal q = true ↔ q ∈ f.finals := by rw [hg]; simp [isFinal]
  rw [← hg]
  have hout : ∀ q c, 264 ≤ c → f.dst q c = ∅ := fun q c hc => by
    rw [Finset.eq_empty_iff_forall_notMem]
    intro p hp
    have := (hw.dst_lt hp).2.1
    omega
  by_cases hf : q ∈ f.finals
  · rw [if_pos (hgf.2 hf)]
    have hrow := cutRow_spec q (List.range MaxChar) g hgs
    generalize hk : (List.range MaxChar).foldl (fun f c => (elems (f.destinations q c)).foldl (fun f p => f.disconnect q p c) f) g = k at hrow ⊢
    have hki : k.initial = f.initial := by
      rw [← hk, (SameShape.foldl (fun f c => SameShape.foldl (fun f p => SameShape.disconnect f q p c) _ f) _ g).initial, hgi]
    have hrow' : ∀ q' c', k.dst q' c' = if q' = q then ∅ else f.dst q' c' := by
      intro q' c'
      rw [hrow, hgd]
      by_cases hq : q' = q
      · rw [if_pos hq]
        by_cases hc : c' < 264
        · rw [if_pos ⟨hq, List.mem_range.2 hc⟩]
        · rw [if_neg (fun h => hc (List.mem_range.1 h.2)), hout _ _ (by omega)]
      · rw [if_neg hq, if_neg (fun h => hq h.1)]
    cases b with
    | true =>
      rw [if_pos rfl, hrow']
      simp [hf]
    | false =>
      simp only [Bool.false_eq_true, if_false]
      unfold dst connect
      simp only
      rw [show k.dst q Epsilon = ∅ by rw [hrow', if_pos rfl]]
      by_cases hq : q' = q
      · by_cases hc : c' = 257
        · simp [hq, hc, hf, hki]
        · rw [if_neg (by intro h; exact hc h.2), if_pos ⟨hq, hf⟩, if_neg (by simp [hc])]
          have := hrow' q' c'
          rw [if_pos hq] at this
          exact this
      · rw [if_neg (fun h => hq h.1), if_neg (fun h => hq h.1)]
        have := hrow' q' c'
        rw [if_neg hq] at this
        exact this
  · rw [if_neg (fun h => hf (hgf.1 h)), hgd]
    rw [if_neg (fun h => hf h.2)]

theorem cutState_wf (b : Bool) {f : Fsm} (hw : f.WF) (q : Nat) (hq : q < f.size) : (cutState b f q).WF := by
  have key : ∀ g : Fsm, g.WF → g.size = f.size → (cutState b g q).WF := by
    intro g hg hsz
    unfold cutState
    simp only
    have h0 : ({ g with tags := Function.update g.tags q (some 0) } : Fsm).WF := ⟨hg.init_lt, hg.fin_lt, hg.tr_lt, hg.let_wf, hg.let_lt⟩
    have hsz0 : ({ g with tags := Function.update g.tags q (some 0) } : Fsm).size = f.size := hsz
    generalize ({ g with tags := Function.update g.tags q (some 0) } : Fsm) = k at h0 hsz0 ⊢
    split
    · have h1 : ∀ (l : List Nat) (g : Fsm), g.WF → (l.foldl (fun f c => (elems (f.destinations q c)).foldl (fun f p => f.disconnect q p c) f) g).WF := by
        intro l
        induction l with
        | nil => intro g h; exact h
        | cons c l ih =>
          intro g h
          refine ih _ ?_
          show ((elems (g.destinations q c)).foldl (fun f p => f.disconnect q p c) g).WF
          generalize elems (g.destinations q c) = l'
          clear ih
          induction l' generalizing g with
          | nil => exact h
          | cons p l' ih' => exact ih' _ (h.disconnect q p c)
      have h2 := h1 (List.range MaxChar) k h0
      have hs2 := (SameShape.foldl (fun f c => SameShape.foldl (fun f p => SameShape.disconnect f q p c) (elems (f.destinations q c)) f) (List.range MaxChar) k)
      split
      · exact h2
      · exact h2.connect (by rw [hs2.size]; omega) h2.init_lt (by simp [Epsilon])
    · exact h0
  exact key f hw rfl

/-- All states cut. -/
theorem cutAll_spec (b : Bool) {f : Fsm} (hw : f.WF) (hs : f.sparsed = false) (n : Nat) (hn : n ≤ f.size) :
    SameShape f ((List.range n).foldl (cutState b) f) ∧ ((List.range n).foldl (cutState b) f).WF ∧
    ∀ q c, ((List.range n).foldl (cutState b) f).dst q c =
      if q < n ∧ q ∈ f.finals then (if b = false ∧ c = 257 then {f.initial} else ∅) else f.dst q c := by
  induction n with
  | zero => exact ⟨.refl f, hw, fun q c => by simp⟩
  | succ n ih =>
    obtain ⟨h1, h2, h3⟩ := ih (by omega)
    rw [List.range_succ, List.foldl_append, List.foldl_cons, List.foldl_nil]
    generalize (List.range n).foldl (cutState b) f = g at h1 h2 h3
    refine ⟨h1.trans (cutState_same b g n), cutState_wf b h2 n (by rw [h1.size]; omega), fun q c => ?_⟩
    rw [cutState_dst b h2 (h1.sparsed.trans hs), h1.finals, h1.initial, h3]
    by_cases hq : q = n ∧ n ∈ f.finals
    · rw [if_pos hq, if_pos (show q < n + 1 ∧ q ∈ f.finals from ⟨by omega, by rw [hq.1]; exact hq.2⟩)]
    · rw [if_neg hq]
      by_cases hq2 : q < n ∧ q ∈ f.finals
      · rw [if_pos hq2, if_pos (show q < n + 1 ∧ q ∈ f.finals from ⟨by omega, hq2.2⟩)]
      · rw [if_neg hq2, if_neg]
        rintro ⟨h4, h5⟩
        by_cases hqn : q = n
        · exact hq ⟨hqn, hqn ▸ h5⟩
        · exact hq2 ⟨by omega, h5⟩

theorem tagsIn_cut (b : Bool) {f : Fsm} (h : f.TagsIn (· = 0)) (l : List Nat) : (l.foldl (cutState b) f).TagsIn (· = 0) := by
  refine foldl_tagsIn (M := (· = 0)) (F := cutState b) (fun _ _ a b => by rw [a, b]; rfl) ?_ l h
  intro f q h
  have key : ∀ g : Fsm, g.TagsIn (· = 0) → (cutState b g q).TagsIn (· = 0) := by
    intro g hg
    unfold cutState
    simp only
    have h0 : ({ g with tags := Function.update g.tags q (some 0) } : Fsm).TagsIn (· = 0) := by
      intro x t hx
      simp only at hx
      by_cases hxq : x = q
      · subst hxq; rw [Function.update_self] at hx; cases hx; rfl
      · rw [Function.update_of_ne hxq] at hx; exact hg x t hx
    generalize ({ g with tags := Function.update g.tags q (some 0) } : Fsm) = k at h0 ⊢
    have h1 : ∀ (l : List Nat) (g : Fsm), (l.foldl (fun f c => (elems (f.destinations q c)).foldl (fun f p => f.disconnect q p c) f) g).tags = g.tags :=
      fun l g => foldl_tags (F := fun (f : Fsm) c => (elems (f.destinations q c)).foldl (fun f p => f.disconnect q p c) f)
        (fun f c => foldl_tags (F := fun (f : Fsm) p => f.disconnect q p c) (fun f p => rfl) _ f) l g
    generalize List.range MaxChar = l0
    split
    · split
      · intro x t hx; rw [h1] at hx; exact h0 x t hx
      · intro x t hx; rw [connect_tags, h1] at hx; exact h0 x t hx
    · exact h0
  exact key f h

/-- An automaton with another partition of letters. -/
def setL (f : Fsm) (L : Partition) : Fsm := { f with letters := L }

theorem connectAll_setL (l : List (Nat × Nat × Nat)) (f : Fsm) (L : Partition) : (setL f L).connectAll l = setL (f.connectAll l) L := by
  unfold connectAll
  induction l generalizing f with
  | nil => rfl
  | cons x l ih =>
    rw [List.foldl_cons, List.foldl_cons, ← ih]
    rfl

/-- `PrependAnything` for a given list of letters. -/
def prependLetters (f : Fsm) (l : List Nat) : Fsm :=
  let new := f.size
  let f := f.resize (f.size + 1)
  let f := f.connectAll (l.map fun c => (new, new, c))
  let f := f.connect new f.initial Epsilon
  { f with initial := new, determined := false }

theorem prependAnything_eq (f : Fsm) : f.prependAnything = prependLetters f (List.range MaxChar) := rfl

theorem prependLetters_setL (f : Fsm) (L : Partition) (l : List Nat) : prependLetters (setL f L) l = setL (prependLetters f l) L := by
  unfold prependLetters
  simp only
  rw [show (setL f L).resize ((setL f L).size + 1) = setL (f.resize (f.size + 1)) L from rfl, connectAll_setL]
  rfl

theorem prependAnything_setL (f : Fsm) (L : Partition) : (setL f L).prependAnything = setL f.prependAnything L :=
  (prependAnything_eq _).trans ((prependLetters_setL f L _).trans (congrArg (setL · L) (prependAnything_eq f).symm))

theorem sparse_setL (f : Fsm) (L : Partition) : (setL f L).sparse = f.sparse := rfl

/-- The automaton `DisconnectFinals` works on, its letters unpacked. -/
def cutRaw (b : Bool) (f : Fsm) : Fsm := setL ((List.range f.size).foldl (cutState b) f.unsparse) Partition.empty

theorem cutFinals_eq (b : Bool) (f : Fsm) :
    cutFinals b f = { (if b then (cutRaw b f).prependAnything else cutRaw b f).sparse with determined := false } := by
  unfold cutFinals cutRaw
  simp only
  rw [show f.unsparse.size = f.size from rfl]
  generalize (List.range f.size).foldl (cutState b) f.unsparse = g
  cases b
  · rw [if_neg (by decide), if_neg (by decide), sparse_setL]
  · rw [if_pos rfl, if_pos rfl, prependAnything_setL, sparse_setL]

theorem cutRaw_spec (b : Bool) {f : Fsm} (h : f.WF) (ha : f.isAlt = false) :
    (cutRaw b f).WF ∧ (cutRaw b f).Raw ∧ (cutRaw b f).isAlt = false ∧ (cutRaw b f).size = f.size ∧ (cutRaw b f).initial = f.initial ∧
    (cutRaw b f).finals = f.finals ∧
    ∀ q c p, (cutRaw b f).Edge q c p ↔ (q ∉ f.finals ∧ f.Edge q c p) ∨ (b = false ∧ q ∈ f.finals ∧ c = 257 ∧ p = f.initial) := by
  obtain ⟨h1, h2, h3⟩ := cutAll_spec b h.unsparse rfl f.size le_rfl
  have hRaw : (cutRaw b f).Raw := rfl
  have hWF : (cutRaw b f).WF := ⟨h2.init_lt, h2.fin_lt, h2.tr_lt, Partition.WF.empty, fun c r hc => by simp [cutRaw, setL, Partition.empty] at hc⟩
  refine ⟨hWF, hRaw, h1.isAlt ha, h1.size, h1.initial, h1.finals, fun q c p => ?_⟩
  have hk : (cutRaw b f).key c = c := by
    unfold key
    split
    · exact Eq.symm ‹_›
    · rw [show (cutRaw b f).letters = Partition.empty from rfl]; rfl
  rw [edge_iff, hk]
  change p ∈ ((List.range f.size).foldl (cutState b) f.unsparse).dst q c ↔ _
  rw [h3, unsparse_dst h]
  change p ∈ (if q < f.size ∧ q ∈ f.finals then (if b = false ∧ c = 257 then {f.initial} else ∅) else f.eff q c) ↔ _
  by_cases hf : q ∈ f.finals
  · rw [if_pos ⟨h.fin_lt q hf, hf⟩]
    by_cases hb : b = false ∧ c = 257
    · rw [if_pos hb, Finset.mem_singleton]; simp [hf, hb]
    · rw [if_neg hb]; simp [hf]; tauto
  · rw [if_neg (fun x => hf x.2)]
    simp [hf, Edge]

theorem good_sparse {f : Fsm} (h : f.WF) (hr : f.Raw) (ha : f.isAlt = false) :
    ({ f.sparse with determined := false } : Fsm).Good ∧ ({ f.sparse with determined := false } : Fsm).Lang = f.Lang := by
  have hk : ∀ c, f.key c = c := fun c => by
    unfold key
    split
    · exact Eq.symm ‹_›
    · rw [show f.letters = Partition.empty from hr]; rfl
  have hE : ({ f.sparse with determined := false } : Fsm).Edge = f.Edge := by
    funext q c p
    rw [eq_iff_iff, show ({ f.sparse with determined := false } : Fsm).Edge = f.sparse.Edge from edge_congr rfl rfl, sparse_edge h, edge_iff, hk]
  have hw := h.sparse
  refine ⟨⟨⟨hw.init_lt, hw.fin_lt, hw.tr_lt, hw.let_wf, hw.let_lt⟩, Coh.sparse h, ?_, .of_false ha, fun x => by cases x⟩, lang_congr hE rfl rfl⟩
  intro c r hc p
  right
  intro q
  have := (sparse_letters h false).2.2.1 c r hc q
  change p ∈ f.dst q c ↔ p ∈ f.dst q r
  rw [dst, dst, this]

/-! ### The languages of a deterministic automaton with its final states cut -/

theorem langFrom_nil {f : Fsm} (h : f.Det) (q : Nat) : [] ∈ f.LangFrom q ↔ q ∈ f.finals := by
  constructor
  · rintro ⟨p, hp, hr⟩
    cases hr with
    | refl => exact hp
    | eps e _ => exact absurd e h.no_eps
  · intro hq; exact ⟨q, hq, .refl _⟩

theorem langFrom_cons {f : Fsm} (h : f.Det) {q c q' : Nat} (hc : c ≠ 257) (e : f.Edge q c q') (w : List Nat) :
    c :: w ∈ f.LangFrom q ↔ w ∈ f.LangFrom q' := by
  constructor
  · rintro ⟨p, hp, hr⟩
    cases hr with
    | eps e _ => exact absurd e h.no_eps
    | step _ e' hr' =>
      have := h.edge_unique e e'
      subst this
      exact ⟨p, hp, hr'⟩
  · rintro ⟨p, hp, hr⟩
    exact ⟨p, hp, .step hc e hr⟩

theorem firsts_nil (L : Language Nat) : [] ∈ firsts L ↔ [] ∈ L :=
  ⟨fun h => h.1, fun h => ⟨h, fun _ hu _ => List.prefix_nil.1 hu⟩⟩

theorem firsts_cons {f : Fsm} (h : f.Det) {q c q' : Nat} (hc : c ≠ 257) (e : f.Edge q c q') (w : List Nat) :
    c :: w ∈ firsts (f.LangFrom q) ↔ q ∉ f.finals ∧ w ∈ firsts (f.LangFrom q') := by
  constructor
  · rintro ⟨h1, h2⟩
    have hq : q ∉ f.finals := fun hq => by
      have := h2 [] List.nil_prefix ((langFrom_nil h q).2 hq)
      cases this
    refine ⟨hq, (langFrom_cons h hc e w).1 h1, fun u hu hL => ?_⟩
    have := h2 (c :: u) (List.cons_prefix_cons.2 ⟨rfl, hu⟩) ((langFrom_cons h hc e u).2 hL)
    exact (List.cons.inj this).2
  · rintro ⟨hq, h1, h2⟩
    refine ⟨(langFrom_cons h hc e w).2 h1, fun u hu hL => ?_⟩
    cases u with
    | nil => exact absurd ((langFrom_nil h q).1 hL) hq
    | cons x u =>
      obtain ⟨rfl, hu'⟩ := List.cons_prefix_cons.1 hu
      rw [h2 u hu' ((langFrom_cons h hc e u).1 hL)]

/-- Runs of the cut automaton that stay within one word. -/
theorem cutRaw_firsts {b : Bool} {f : Fsm} (h : f.Det) (ha : f.isAlt = false) (w : List Nat) : ∀ q, w ∈ firsts (f.LangFrom q) →
    ∃ p ∈ f.finals, Run (cutRaw b f).Edge q w p := by
  obtain ⟨-, -, -, -, -, -, hE⟩ := cutRaw_spec b h.wf ha
  induction w with
  | nil => intro q hq; exact ⟨q, (langFrom_nil h q).1 hq.1, .refl _⟩
  | cons c w ih =>
    intro q hq
    obtain ⟨p, hp, hr⟩ := hq.1
    cases hr with
    | eps e _ => exact absurd e h.no_eps
    | @step _ _ q' _ _ hc e hr' =>
      obtain ⟨h1, h2⟩ := (firsts_cons h hc e w).1 hq
      obtain ⟨p', hp', hr'⟩ := ih q' h2
      exact ⟨p', hp', .step hc ((hE _ _ _).2 (.inl ⟨h1, e⟩)) hr'⟩

theorem lang_cutRaw_true {f : Fsm} (h : f.Det) (ha : f.isAlt = false) : (cutRaw true f).Lang = firsts f.Lang := by
  obtain ⟨-, -, -, -, hi, hf, hE⟩ := cutRaw_spec true h.wf ha
  have key : ∀ {q w p}, Run (cutRaw true f).Edge q w p → p ∈ f.finals → w ∈ firsts (f.LangFrom q) := by
    intro q w p hr hp
    induction hr with
    | refl => exact (firsts_nil _).2 ((langFrom_nil h _).2 hp)
    | eps e _ _ => rcases (hE _ _ _).1 e with ⟨-, e⟩ | ⟨hb, -⟩
                   · exact absurd e h.no_eps
                   · cases hb
    | step hc e _ ih => rcases (hE _ _ _).1 e with ⟨hq, e⟩ | ⟨hb, -⟩
                        · exact (firsts_cons h hc e _).2 ⟨hq, ih hp⟩
                        · cases hb
  ext w
  rw [mem_lang, hi, hf]
  constructor
  · rintro ⟨p, hp, hr⟩; exact key hr hp
  · intro hw; exact cutRaw_firsts h ha w _ hw

theorem lang_cutRaw_false {f : Fsm} (h : f.Det) (ha : f.isAlt = false) :
    (cutRaw false f).Lang = firsts f.Lang * KStar.kstar (firsts f.Lang) := by
  obtain ⟨-, -, -, -, hi, hf, hE⟩ := cutRaw_spec false h.wf ha
  have key : ∀ {q w p}, Run (cutRaw false f).Edge q w p → p ∈ f.finals → w ∈ firsts (f.LangFrom q) * KStar.kstar (firsts f.Lang) := by
    intro q w p hr hp
    induction hr with
    | refl => exact ⟨[], (firsts_nil _).2 ((langFrom_nil h _).2 hp), [], Language.nil_mem_kstar _, rfl⟩
    | eps e _ ih =>
      rcases (hE _ _ _).1 e with ⟨-, e⟩ | ⟨-, hq, -, rfl⟩
      · exact absurd e h.no_eps
      · refine ⟨[], (firsts_nil _).2 ((langFrom_nil h _).2 hq), _, ?_, rfl⟩
        obtain ⟨u, hu, v, hv, rfl⟩ := ih hp
        obtain ⟨S, rfl, hS⟩ := Language.mem_kstar.1 hv
        exact Language.mem_kstar.2 ⟨u :: S, rfl, fun y hy => by
          rcases List.mem_cons.1 hy with rfl | hy
          · exact hu
          · exact hS y hy⟩
    | step hc e _ ih =>
      rcases (hE _ _ _).1 e with ⟨hq, e⟩ | ⟨-, -, h257, -⟩
      · obtain ⟨u, hu, v, hv, rfl⟩ := ih hp
        exact ⟨_ :: u, (firsts_cons h hc e _).2 ⟨hq, hu⟩, v, hv, rfl⟩
      · exact absurd h257 hc
  ext w
  rw [mem_lang, hi, hf]
  constructor
  · rintro ⟨p, hp, hr⟩; exact key hr hp
  · rintro ⟨u, hu, v, hv, rfl⟩
    obtain ⟨p, hp, hr⟩ := cutRaw_firsts (b := false) h ha u _ hu
    obtain ⟨S, rfl, hS⟩ := Language.mem_kstar.1 hv
    clear hv hu
    have : ∀ S : List (List Nat), (∀ y ∈ S, y ∈ firsts f.Lang) → ∀ p ∈ f.finals, ∃ p' ∈ f.finals, Run (cutRaw false f).Edge p S.flatten p' := by
      intro S
      induction S with
      | nil => intro _ p hp; exact ⟨p, hp, .refl _⟩
      | cons y S ih =>
        intro hS p hp
        obtain ⟨p1, hp1, hr1⟩ := cutRaw_firsts (b := false) h ha y f.initial (hS y (by simp))
        obtain ⟨p2, hp2, hr2⟩ := ih (fun z hz => hS z (by simp [hz])) p1 hp1
        exact ⟨p2, hp2, .eps ((hE _ _ _).2 (.inr ⟨rfl, hp, rfl, rfl⟩)) (hr1.trans hr2)⟩
    obtain ⟨p', hp', hr'⟩ := this S hS p hp
    exact ⟨p', hp', hr.trans hr'⟩

/-- What `DisconnectFinals` does to a canonized automaton. -/
theorem cutFinals_good (b : Bool) {f : Fsm} (h : f.Det) (ha : f.isAlt = false) : (cutFinals b f).Good ∧
    (cutFinals b f).Lang = (if b then allWords * firsts f.Lang else firsts f.Lang * KStar.kstar (firsts f.Lang)) ∧
    (cutFinals b f).size ≤ f.size + 1 := by
  obtain ⟨c1, c2, c3, c4, c5, c6, c7⟩ := cutRaw_spec b h.wf ha
  rw [cutFinals_eq]
  cases b with
  | false =>
    simp only [Bool.false_eq_true, if_false]
    rw [← lang_cutRaw_false h ha]
    obtain ⟨h1, h2⟩ := good_sparse c1 c2 c3
    exact ⟨h1, h2, c4.le.trans (Nat.le_succ _)⟩
  | true =>
    simp only [if_true]
    rw [← lang_cutRaw_true h ha, ← lang_prependAnything c1]
    have hl : (cutRaw true f).prependAnything.letters = Partition.empty := by
      rw [prependAnything_letters]; exact c2
    obtain ⟨h1, h2⟩ := good_sparse c1.prependAnything hl rfl
    refine ⟨h1, h2, ?_⟩
    have e : ∀ k : Fsm, ({ k.sparse with determined := false } : Fsm).size = k.size := fun _ => rfl
    rw [e, prependAnything_size, c4]

theorem disconnectFinals_spec {b : Bool} {f g : Fsm} (h : f.Det) (ha : f.isAlt = false) (hg : disconnectFinals b f = some g) :
    g.Det ∧ g.isAlt = false ∧ g.Lang = (if b then allWords * firsts f.Lang else firsts f.Lang * KStar.kstar (firsts f.Lang)) ∧
    g.size ≤ 200001 ∧ (f.TagsIn (· = 0) → g.TagsIn (· = 0)) := by
  unfold disconnectFinals at hg
  obtain ⟨hgd, hgl, -⟩ := cutFinals_good b h ha
  obtain ⟨d1, d2, d3, -⟩ := canonize_spec hgd hg
  refine ⟨d1, d2, d3.trans hgl, ?_, fun ht => ?_⟩
  · have := canonize_size hgd hg
    rw [if_neg (by rw [cutFinals_eq]; simp)] at this
    simpa using this
  · refine TagsIn.canonize (M := (· = 0)) (fun _ _ a b => by rw [a, b]; rfl) ?_ hg
    have h1 := tagsIn_cut b (f := f.unsparse) ht (List.range f.size)
    rw [cutFinals_eq]
    cases b with
    | false => exact h1
    | true =>
      intro x t hx
      have e : ∀ k : Fsm, ({ k.sparse with determined := false } : Fsm).tags = k.tags := fun _ => rfl
      rw [if_pos rfl, e, prependAnything_tags] at hx
      exact h1 x t hx

end HalfFinal
end Pire
