import Verif.Proofs.ApproxLang
import Verif.Props.Scanner
import Verif.Props.Simple
import Verif.Props.Slow

/-!
# C46: approximate matching

`createApprox f d` is `CreateApproxFsm(f, d)`; `Near`, `Edits`, `levenshtein` are specified in `Spec/Approx.lean`.
-/

namespace Pire.Props

open Pire Pire.Spec Pire.Fsm Pire.Multi

variable {f : Fsm} {d k : Nat} {u w : List Nat}

/-! ### Scripts of edits and the distance of Levenshtein -/

theorem levenshtein_le {swaps : Bool} (h : Edits swaps true k u w) (hs : swaps = false) : levenshtein u w ≤ k := by
  induction h with
  | done => simp [levenshtein]
  | @keep k u w c _ ih =>
    rw [levenshtein]; simp; omega
  | @replace k u w c c' _ ih =>
    rw [levenshtein]
    split <;> omega
  | @drop k u w c _ ih =>
    cases w with
    | nil => simp [levenshtein] at ih ⊢; cases u <;> simp_all [levenshtein]
    | cons b w => rw [levenshtein]; omega
  | @add k u w c _ _ ih =>
    cases u with
    | nil => simp [levenshtein] at ih ⊢; omega
    | cons b u => rw [levenshtein]; omega
  | swap a b h => rw [hs] at h; cases h

theorem edits_drop_all (swaps tail : Bool) (u : List Nat) : Edits swaps tail u.length u [] := by
  induction u with
  | nil => exact .done
  | cons c u ih => exact .drop c ih

theorem edits_add_all (swaps : Bool) (w : List Nat) : Edits swaps true w.length [] w := by
  induction w with
  | nil => exact .done
  | cons c u ih => exact .add c (.inl rfl) ih

theorem edits_levenshtein (swaps : Bool) (u w : List Nat) : Edits swaps true (levenshtein u w) u w := by
  induction u, w using levenshtein.induct with
  | case1 w => rw [levenshtein]; exact edits_add_all swaps w
  | case2 u h => cases u with
    | nil => exact absurd rfl h
    | cons a u => rw [levenshtein]; exact edits_drop_all ..; simp
  | case3 a u b w ih1 ih2 ih3 =>
    rw [levenshtein]
    rcases min_choice (levenshtein u (b :: w) + 1) (min (levenshtein (a :: u) w + 1) (levenshtein u w + if a = b then 0 else 1)) with h | h
    · rw [h]; exact .drop a ih1
    · rw [h]
      rcases min_choice (levenshtein (a :: u) w + 1) (levenshtein u w + if a = b then 0 else 1) with h | h
      · rw [h]; exact .add b (.inl rfl) ih2
      · rw [h]
        split
        · rename_i e; rw [e]; exact .keep b ih3
        · exact .replace a b ih3

/-- Without exchanges, the scripts measure the distance of Levenshtein. -/
theorem C46_scripts_levenshtein (u w : List Nat) (d : Nat) : (∃ k ≤ d, Edits false true k u w) ↔ levenshtein u w ≤ d := by
  constructor
  · rintro ⟨k, hk, h⟩; exact (levenshtein_le h rfl).trans hk
  · exact fun h => ⟨_, h, edits_levenshtein false u w⟩

theorem edits_refl (swaps tail : Bool) (u : List Nat) : Edits swaps tail 0 u u := by
  induction u with
  | nil => exact .done
  | cons c u ih => exact .keep c ih

/-- Behind a last letter that both words share nothing is added. -/
theorem edits_closed {swaps : Bool} (e : Nat) (h : Edits swaps true k u w) : Edits swaps false k (u ++ [e]) (w ++ [e]) := by
  induction h with
  | done => exact .keep e .done
  | keep c _ ih => exact .keep c ih
  | replace c c' _ ih => exact .replace c c' ih
  | drop c _ ih => exact .drop c ih
  | add c _ _ ih => exact .add c (.inr (by simp)) ih
  | swap a b h _ ih => exact .swap a b h ih

/-! ### The language -/

/-- No word further away than `d` edits from the language is accepted. -/
theorem C46_sound (h : f.WF) (hc : f.Coh) (hd : f.Direct) (d : Nat) : (f.createApprox d).Lang ≤ Near true true d f.Lang := by
  obtain ⟨ts, ha⟩ := createApprox_spec h hc hd d
  rintro w ⟨z, hz, hr⟩
  rw [ha.initial] at hr
  exact ((ha.sound h hc (.inl rfl) hr hz).1 0 f.initial (by omega) h.init_lt (by simp))

/-- With the distance 0 nothing changes. -/
theorem C46_zero (f : Fsm) : f.createApprox 0 = f := rfl

/-- Every text that replacing, dropping and adding at most `d` letters makes of a word of the language is accepted, if nothing is added
behind the word. If the final states have outgoing edges, letters may be added there, too; if there are no epsilon edges and letters are not
packed, neighbours may be exchanged. -/
theorem C46_complete (h : f.WF) (hc : f.Coh) (hns : f.sparsed = false) {swaps tail : Bool}
    (hs : swaps = true → f.Raw ∧ ∀ q p, ¬ f.Edge q Epsilon p) (htl : tail = true → ∀ q ∈ f.finals, f.Busy q) (hw : IsWord w)
    (hn : w ∈ Near swaps tail d f.Lang) : w ∈ (f.createApprox d).Lang := by
  obtain ⟨ts, ha⟩ := createApprox_spec h hc (direct_unsparsed hns) d
  obtain ⟨u, hu, k, hk, hE⟩ := hn
  obtain ⟨z, hz, hr⟩ := ha.complete h hns hs htl hE hw f.initial 0 (by omega) hu
  rw [Nat.zero_mul, Nat.add_zero] at hr
  exact ⟨z, hz, by rw [ha.initial]; exact hr⟩

/-- The words of the language itself are accepted. -/
theorem C46_contains (h : f.WF) (hc : f.Coh) (hns : f.sparsed = false) (d : Nat) : f.Lang ≤ (f.createApprox d).Lang := by
  intro w hw
  refine C46_complete (swaps := false) (tail := false) h hc hns (fun h => (by cases h)) (fun h => (by cases h)) (h.lang_word hw)
    ⟨w, hw, 0, by omega, edits_refl false false w⟩

/-- A text between marks (`^...$`) is accepted if its distance of Levenshtein from a word of the language is at most `d`. -/
theorem C46_levenshtein (h : f.WF) (hc : f.Coh) (hns : f.sparsed = false) (hw : IsWord w)
    (hu : BeginMark :: u ++ [EndMark] ∈ f.Lang) (hd : levenshtein u w ≤ d) : BeginMark :: w ++ [EndMark] ∈ (f.createApprox d).Lang := by
  refine C46_complete (swaps := false) (tail := false) h hc hns (fun h => (by cases h)) (fun h => (by cases h)) ?_
    ⟨_, hu, levenshtein u w, hd, .keep _ (edits_closed EndMark (edits_levenshtein false u w))⟩
  intro c hc
  rcases List.mem_cons.1 hc with rfl | hc
  · decide
  rcases List.mem_append.1 hc with hc | hc
  · exact hw c hc
  · rw [List.mem_singleton.1 hc]; decide

/-- The exact language, if nothing leads on from the final states (as in an automaton for a text). -/
theorem C46_exact (h : f.WF) (hr : f.Raw) (hns : f.sparsed = false) (he : ∀ q p, ¬ f.Edge q Epsilon p) (hf : ∀ q ∈ f.finals, ¬ f.Busy q) (d : Nat) :
    (f.createApprox d).Lang = {w | IsWord w ∧ w ∈ Near true false d f.Lang} := by
  obtain ⟨ts, ha⟩ := createApprox_spec h hr.coh (direct_unsparsed hns) d
  ext w
  constructor
  · intro hw
    refine ⟨ha.wf.lang_word hw, ?_⟩
    obtain ⟨z, hz, hrun⟩ := hw
    rw [ha.initial] at hrun
    refine (ha.sound h hr.coh (.inr fun q hb hq => ?_) hrun hz).1 0 f.initial (by omega) h.init_lt (by simp)
    obtain ⟨p, hp, hrun⟩ := hq
    cases hrun with
    | refl => exact hf q hp hb
    | eps e _ => exact he _ _ e
  · rintro ⟨hw, hn⟩
    exact C46_complete h hr.coh hns (fun _ => ⟨hr, he⟩) (fun h => (by cases h)) hw hn

/-- The exact language, if something leads on from all final states (as in a surrounded automaton). -/
theorem C46_exact_open (h : f.WF) (hr : f.Raw) (hns : f.sparsed = false) (he : ∀ q p, ¬ f.Edge q Epsilon p) (hf : ∀ q ∈ f.finals, f.Busy q) (d : Nat) :
    (f.createApprox d).Lang = {w | IsWord w ∧ w ∈ Near true true d f.Lang} := by
  obtain ⟨ts, ha⟩ := createApprox_spec h hr.coh (direct_unsparsed hns) d
  ext w
  constructor
  · exact fun hw => ⟨ha.wf.lang_word hw, C46_sound h hr.coh (direct_unsparsed hns) d hw⟩
  · rintro ⟨hw, hn⟩
    exact C46_complete h hr.coh hns (fun _ => ⟨hr, he⟩) (fun _ => hf) hw hn

/-! ### Texts -/

/-- The automaton of a text: nothing leads on from its final state and there are no epsilons. -/
structure Chain (f : Fsm) : Prop where
  wf : f.WF
  raw : f.Raw
  unsparsed : f.sparsed = false
  undetermined : f.determined = false
  noeps : ∀ q p, ¬ f.Edge q Epsilon p
  ends : ∀ q ∈ f.finals, ¬ f.Busy q

theorem Chain.appendChar {f : Fsm} (h : Chain f) {c : Nat} (hc : IsLetter c) : Chain (f.appendChar c) := by
  refine ⟨h.wf.appendChar hc.1, h.raw.appendChar c, ?_, rfl, fun q p he => ?_, fun q hq hb => ?_⟩
  · simp only [Fsm.appendChar, Fsm.setFinal, Fsm.clearFinal, connectFinal_sparsed]
    exact h.unsparsed
  · rcases (appendChar_edge h.wf c q Epsilon p).1 he with e | ⟨-, -, e⟩
    · exact h.noeps q p e
    · rw [key_raw h.raw] at e
      exact hc.2 e.symm
  · rw [appendChar_finals, Finset.mem_singleton] at hq
    subst hq
    obtain ⟨l, hl⟩ := hb
    have : (f.appendChar c).tr f.size l = none := by
      change ((f.resize (f.size + 1)).connectAll _).tr f.size l = none
      rw [tr_connectAll_of_forall_ne, h.wf.resize_tr (by omega), h.wf.tr_of_ge (le_refl _)]
      intro x hx
      simp only [List.mem_map, Prod.mk.injEq, mem_elems] at hx
      obtain ⟨q, hq, rfl, -⟩ := hx
      have := h.wf.fin_lt _ hq
      omega
    rw [this] at hl
    cases hl

theorem chain_text {s : List Nat} (hs : IsWord s) : Chain (Fsm.init.appendStr s) := by
  have : ∀ (s : List Nat) (f : Fsm), IsWord s → Chain f → Chain (f.appendStr s) := by
    intro s
    induction s with
    | nil => exact fun f _ h => h
    | cons c s ih => exact fun f hs h => ih _ (fun d hd => hs d (by simp [hd])) (h.appendChar (hs c (by simp)))
  refine this s _ hs ⟨.init, init_raw, rfl, rfl, fun q p he => ?_, fun q _ hb => ?_⟩
  · rw [edge_iff] at he; cases he
  · obtain ⟨l, hl⟩ := hb; cases hl

theorem text_lang {s : List Nat} (hs : IsWord s) : (Fsm.init.appendStr s).Lang = single s := by
  rw [(appendStr_props .init init_raw hs).2.2, lang_init]
  exact one_mul (single s)

/-- `CreateApproxFsm` of the automaton of a text accepts exactly what at most `d` edits make of the text, nothing being added behind it. -/
theorem C46_text {s : List Nat} (hs : IsWord s) (d : Nat) (w : List Nat) :
    w ∈ ((Fsm.init.appendStr s).createApprox d).Lang ↔ IsWord w ∧ ∃ k ≤ d, Edits true false k s w := by
  have h := chain_text hs
  rw [C46_exact h.wf h.raw h.unsparsed h.noeps h.ends]
  constructor
  · rintro ⟨hw, u, hu, hk⟩
    rw [text_lang hs] at hu
    have hu : u = s := hu
    subst hu
    exact ⟨hw, hk⟩
  · rintro ⟨hw, hk⟩
    exact ⟨hw, s, by rw [text_lang hs]; rfl, hk⟩

/-- What `^text$` becomes: the texts at most `d` edits away, and the text with its marks replaced or dropped. -/
theorem C46_marked_text {s : List Nat} (hs : IsWord s) {w : List Nat} (hw : IsWord w) (hd : levenshtein s w ≤ d) :
    BeginMark :: w ++ [EndMark] ∈ ((Fsm.init.appendStr (BeginMark :: s ++ [EndMark])).createApprox d).Lang := by
  have hs' : IsWord (BeginMark :: s ++ [EndMark]) := by
    intro c hc
    rcases List.mem_cons.1 hc with rfl | hc
    · decide
    rcases List.mem_append.1 hc with hc | hc
    · exact hs c hc
    · rw [List.mem_singleton.1 hc]; decide
  have h := chain_text hs'
  exact C46_levenshtein h.wf h.raw.coh h.unsparsed hw (by rw [text_lang hs']; rfl) hd

/-- One letter added behind a text is not found: `ab` is one edit away from `a`. -/
theorem C46_missed_behind : levenshtein [97] [97, 98] = 1 ∧ [97, 98] ∉ ((Fsm.init.appendStr [97]).createApprox 1).Lang := by
  refine ⟨by simp [levenshtein], fun h => ?_⟩
  obtain ⟨-, k, hk, hE⟩ := (C46_text (by unfold IsWord; decide) 1 _).1 h
  have e0 : ∀ {w}, Edits true false 0 [] w → w = [] := by
    intro w h; cases h; rfl
  have e1 : ∀ {k w}, Edits true false k [] w → w = [] := by
    intro k w h
    cases h with
    | done => rfl
    | add c hne _ => simp at hne
  cases hE with
  | keep c h => cases e1 h
  | replace c c' h => cases e1 h
  | drop c h => cases e1 h
  | @add k _ _ c _ h =>
    obtain rfl : k = 0 := by omega
    cases h

/-! ### Scanners with a distance -/

theorem approx_good (h : f.Good) (hns : f.sparsed = false) (hd : f.determined = false) (d : Nat) : (f.createApprox d).Good := by
  obtain ⟨ts, ha⟩ := createApprox_spec h.wf h.coh (direct_unsparsed hns) d
  cases d with
  | zero => exact h
  | succ d =>
    refine .of_raw ha.wf (ha.raw (by omega)) (fun hal => ?_) (ha.determined.trans hd)
    obtain ⟨h1, h2⟩ := ha.alt hal
    obtain ⟨a1, a2, a3⟩ := h.alt h1
    have none : ∀ q c p, ¬ f.Edge q c p := by
      intro q c p he
      exact h2 (by omega) q 257 p ⟨by decide, .inl ⟨⟨_, edge_iff.1 he⟩, .inr rfl⟩⟩
    have none' : ∀ x c y, ¬ (f.createApprox (d + 1)).Edge x c y := by
      intro x c y he
      rcases (ha.edge x c y).1 he with ⟨i, q, p, -, ⟨-, -, e⟩ | ⟨-, -, e⟩⟩ | ⟨j, t, hj, -⟩
      · exact none _ _ _ e
      · exact h2 (by omega) _ _ _ e
      · obtain ⟨i, -, q, r, p, hp, -⟩ := (ha.swp t).1 (List.mem_of_getElem? hj)
        exact none _ _ _ (h.coh.edge_of_dst h.wf hp.1)
    refine ⟨fun hf => ?_, fun q c => none' q c _, fun c p he => absurd he (none' _ c p)⟩
    rw [ha.initial] at hf
    obtain ⟨i, -, q, hq, e⟩ := (ha.fin _).1 hf
    have := (split_unique (i := 0) h.wf.init_lt (h.wf.fin_lt q hq) (by simpa using e)).1
    rw [this] at a1
    exact a1 hq

theorem withDistance_eq (f : Fsm) (d : Nat) : f.withDistance d = f.createApprox d := by
  unfold withDistance
  split
  · rfl
  · rename_i h
    obtain rfl : d = 0 := by simpa using h
    exact (C46_zero f).symm

/-- `Scanner(fsm, d)`: after any word, `Final` iff the automaton of `CreateApproxFsm` accepts the word, whose language the theorems above
describe. -/
theorem C46_scanner {P : Policy} {base : Nat} {s : Multi} (hP : Typedef P) (h : f.Good) (ht : f.TagsClean) (hns : f.sparsed = false)
    (hd : f.determined = false) (hs : compileApprox P base f d = some s) (hb : Placed P base (f.createApprox d) s) (hw : IsWord w) :
    (s.scn P).final ((s.scn P).after (s.scn P).initial w) = true ↔ w ∈ (f.createApprox d).Lang := by
  unfold compileApprox at hs
  rw [withDistance_eq] at hs
  obtain ⟨ts, ha⟩ := createApprox_spec h.wf h.coh (direct_unsparsed hns) d
  exact C23_final_iff_accepted hP (approx_good h hns hd d) (ha.tags _ ht) hs hb hw

/-- The same for `SimpleScanner(fsm, d)`. -/
theorem C46_simple {base : Nat} {s : Simple} (h : f.Good) (ht : f.TagsIn (· = 0)) (hns : f.sparsed = false)
    (hd : f.determined = false) (hs : Simple.compileApprox base f d = some s) (ha : base % 8 = 0)
    (hsp : base + Simple.bufSize s.statesCount ≤ 2 ^ 64) : Simple.Recognizes s (f.createApprox d).Lang := by
  unfold Simple.compileApprox at hs
  rw [withDistance_eq] at hs
  obtain ⟨ts, ha'⟩ := createApprox_spec h.wf h.coh (direct_unsparsed hns) d
  exact (C23_simple_decides (approx_good h hns hd d) (ha'.tags _ ht) hs ha hsp).1

/-- The same for `SlowScanner(fsm, false, true, d)`. -/
theorem C46_slow (h : f.Good) (ht : f.TagsIn (· % 256 = 0)) (hns : f.sparsed = false) (hd : f.determined = false)
    (hsz : (f.createApprox d).size ≤ 2 ^ 32) : Slow.Recognizes (Slow.compileApprox f d) (f.createApprox d).Lang := by
  unfold Slow.compileApprox
  rw [withDistance_eq]
  obtain ⟨ts, ha'⟩ := createApprox_spec h.wf h.coh (direct_unsparsed hns) d
  exact (C24_slow_decides (approx_good h hns hd d).wf hsz (ha'.tags _ ht)).1

/-! ### What goes wrong -/

/-- If the automaton is determined already, the result still carries the flag, but it is not deterministic: the constructors
of the scanners will skip `Determine`. -/
theorem C46_determined_flag_stays (h : f.Good) (hdet : f.determined = true) (hd : 0 < d) :
    (f.createApprox d).determined = true ∧ ¬ (f.createApprox d).Det ∧ ∃ q p, (f.createApprox d).Edge q Epsilon p := by
  have hD := h.det hdet
  have hdir : f.Direct := by
    intro q l hl
    unfold destinations translate
    split
    · rfl
    · have := hD.keys q l (by cases hx : f.tr q l <;> simp_all)
      unfold Partition.representative
      rw [this]; rfl
  obtain ⟨ts, ha⟩ := createApprox_spec h.wf h.coh hdir d
  obtain ⟨p, hp⟩ := hD.exists_edge h.wf.init_lt (c := 97) (by decide)
  have he : (f.createApprox d).Edge (f.initial + 0 * f.size) 257 (p + (0 + 1) * f.size) :=
    ha.cross hd ⟨by decide, .inl ⟨⟨_, edge_iff.1 hp⟩, .inr rfl⟩⟩
  exact ⟨ha.determined.trans hdet, fun hdt => hdt.no_eps he, _, _, he⟩

/-- `RemoveEpsilons` (also called by the constructor of `SlowScanner` on its argument) packs the letters; afterwards `CreateApproxFsm` takes
every letter for the letter 0 when it asks whether two states are connected, and may not let a letter be replaced. -/
theorem C46_missed_after_packing : ∃ f : Fsm, f.Good ∧ f.determined = false ∧ [0] ∈ f.Lang ∧ levenshtein [0] [98] = 1 ∧
    [98] ∉ (f.createApprox 1).Lang := by
  have hs : IsWord [0] := by unfold IsWord; decide
  have ch := chain_text hs
  obtain ⟨f0, hf0⟩ : ∃ f, f = Fsm.init.appendStr [0] := ⟨_, rfl⟩
  rw [← hf0] at ch
  have r := removeEpsilons_spec ch.wf
  have ed0 : ∀ q c p, f0.Edge q c p ↔ q = 0 ∧ c = 0 ∧ p = 1 := by
    intro q c p
    rw [hf0]
    change (Fsm.init.appendChar 0).Edge q c p ↔ _
    rw [appendChar_edge .init, edge_iff, key_raw init_raw]
    simp [Fsm.init, Fsm.dst]
    tauto
  have stay : ∀ {q p}, Run f0.Edge q [] p ↔ p = q := by
    intro q p
    constructor
    · intro h
      cases h with
      | refl => rfl
      | eps e _ => exact absurd e (ch.noeps _ _)
    · rintro rfl; exact .refl _
  have hf0' : f0.finals = {1} := by rw [hf0]; exact appendChar_finals _ 0
  have hf1 : f0.size = 2 := by rw [hf0]; rfl
  have hf2 : f0.initial = 0 := by rw [hf0]; rfl
  clear hf0
  obtain ⟨f, hf⟩ : ∃ f, f = f0.removeEpsilons := ⟨_, rfl⟩
  rw [← hf] at r
  clear hf
  have dst : ∀ q c p, p ∈ f.dst q c ↔ q = 0 ∧ c = 0 ∧ p = 1 := by
    intro q c p
    rw [r.dst]
    constructor
    · rintro ⟨-, q', h1, h2⟩
      rw [stay] at h1
      subst h1
      exact (ed0 _ _ _).1 h2
    · rintro ⟨rfl, rfl, rfl⟩
      exact ⟨by decide, 0, .refl _, (ed0 _ _ _).2 ⟨rfl, rfl, rfl⟩⟩
  have coh : f.Coh := fun q c r' hr => .inr (r.same c r' hr q).symm
  have edge : ∀ q c p, f.Edge q c p ↔ q = 0 ∧ c = 0 ∧ p = 1 := by
    intro q c p
    constructor
    · intro he
      obtain ⟨h1, h2, h3⟩ := (dst _ _ _).1 (edge_iff.1 he)
      refine ⟨h1, ?_, h3⟩
      unfold Fsm.key at h2
      split at h2
      · cases h2
      · unfold Partition.repOr at h2
        cases hi : f.letters.inv c with
        | none => rw [hi] at h2; exact h2
        | some r' =>
          rw [hi] at h2
          have h2 : r' = 0 := h2
          have : p ∈ f.dst q c := by
            rw [Fsm.dst, ← r.same c r' hi q, h2, ← Fsm.dst]
            exact (dst _ _ _).2 ⟨h1, rfl, h3⟩
          exact ((dst _ _ _).1 this).2.1
    · rintro ⟨rfl, rfl, rfl⟩
      exact coh.edge_of_dst r.wf ((dst _ _ _).2 ⟨rfl, rfl, rfl⟩)
  have fin : ∀ q, q ∈ f.finals ↔ q = 1 := by
    intro q
    rw [r.finals]
    constructor
    · rintro ⟨q', h1, h2⟩
      rw [stay] at h2
      rw [hf0', Finset.mem_singleton] at h1
      omega
    · rintro rfl
      exact ⟨1, by rw [hf0']; simp, .refl _⟩
  have size : f.size = 2 := r.size.trans hf1
  have init : f.initial = 0 := r.initial.trans hf2
  have lang : [0] ∈ f.Lang := by
    refine ⟨1, (fin 1).2 rfl, ?_⟩
    rw [init]
    exact .step (by decide) ((edge 0 0 1).2 ⟨rfl, rfl, rfl⟩) (.refl _)
  have dir : f.Direct := by
    intro q l hl
    unfold destinations translate
    split
    · rfl
    · unfold Partition.representative
      cases hi : f.letters.inv l with
      | none =>
        have h1 := r.all l
        rw [hi] at h1
        obtain ⟨S, hS⟩ := Option.isSome_iff_exists.1 hl
        by_cases h257 : l = 257
        · subst h257; rw [r.noeps] at hS; cases hS
        · have := h1.2 ⟨(r.wf.tr_lt _ _ _ hS).2.1, h257⟩
          cases this
      | some r' =>
        change f.dst q r' = f.dst q l
        rw [Fsm.dst, Fsm.dst, r.same l r' hi q]
  refine ⟨f, ?_, r.determined.trans ch.undetermined, lang, by simp [levenshtein], fun hL => ?_⟩
  · refine ⟨r.wf, coh, ?_, .of_false r.isAlt, fun h => ?_⟩
    · intro c r' hr p
      exact .inr fun q => by rw [Fsm.dst, Fsm.dst, r.same c r' hr q]
    · rw [r.determined.trans ch.undetermined] at h; cases h
  · obtain ⟨ts, ha⟩ := createApprox_spec r.wf coh dir 1
    obtain ⟨z, hz, hr⟩ := hL
    rw [ha.initial, init] at hr
    -- the edges
    have e1 : ∀ q p, f.Leads q p → q = 0 ∧ p = 1 := fun q p ⟨l, hl⟩ => ⟨((dst _ _ _).1 hl).1, ((dst _ _ _).1 hl).2.2⟩
    have sp : ∀ c, c ≠ 257 → f.probe c = 0 := fun c hc => by unfold probe; rw [if_pos ⟨r.sparsed, hc⟩]
    have nosw : ∀ t, t ∉ ts := by
      intro t ht
      obtain ⟨i, -, q, r, p, hp, -⟩ := (ha.swp t).1 ht
      have h1 := ((dst _ _ _).1 hp.1).2.2
      have h2 := ((dst _ _ _).1 hp.2.1).1
      omega
    have step : ∀ x c y, (f.createApprox 1).Edge x c y → (c = 0 ∧ x % 2 = 0 ∧ y = x + 1) ∨ (c = 257 ∧ x = 0 ∧ y = 3) ∨ (x < 2 ∧ y = x + 2) := by
      intro x c y he
      rcases (ha.edge x c y).1 he with ⟨i, q, p, rfl, ⟨hi, rfl, e⟩ | ⟨hi, rfl, e⟩⟩ | ⟨j, t, hj, -⟩
      · obtain ⟨rfl, rfl, rfl⟩ := (edge _ _ _).1 e
        rw [size]
        exact .inl ⟨rfl, by omega, by omega⟩
      · obtain rfl : i = 0 := by omega
        rw [size]
        have hq := (r.wf.cross_lt e).1
        rw [size] at hq
        rcases e.2 with ⟨h1, h2⟩ | ⟨rfl, -⟩
        · obtain ⟨rfl, rfl⟩ := e1 _ _ h1
          rcases h2 with h2 | rfl
          · by_cases hc : c = 257
            · exact .inr (.inl ⟨hc, by omega, by omega⟩)
            · rw [sp c hc] at h2
              exact absurd ((edge 0 0 1).2 ⟨rfl, rfl, rfl⟩) h2
          · exact .inr (.inl ⟨rfl, by omega, by omega⟩)
        · exact .inr (.inr ⟨by omega, by omega⟩)
      · exact absurd (List.mem_of_getElem? hj) (nosw t)
    have hz' : z = 1 ∨ z = 3 := by
      obtain ⟨i, hi, q, hq, rfl⟩ := (ha.fin z).1 hz
      rw [fin] at hq
      rw [size]
      omega
    -- where the letters lead
    have aft : ∀ {x w y}, Run (f.createApprox 1).Edge x w y → w = [] → x = 2 → y = 2 := by
      intro x w y hr
      induction hr with
      | refl => exact fun _ h => h
      | eps e _ ih =>
        rintro - rfl
        rcases step _ _ _ e with ⟨h, -⟩ | ⟨-, h, -⟩ | ⟨h, -⟩ <;> omega
      | step => intro h; cases h
    have bef : ∀ {x w y}, Run (f.createApprox 1).Edge x w y → w = [98] → x = 0 ∨ x = 2 ∨ x = 3 → y = 2 := by
      intro x w y hr
      induction hr with
      | refl => intro h; cases h
      | eps e _ ih =>
        intro hw hx
        refine ih hw ?_
        rcases step _ _ _ e with ⟨h, -⟩ | ⟨-, h, h'⟩ | ⟨h, h'⟩ <;> omega
      | step hc e hr _ =>
        intro hw hx
        obtain ⟨rfl, rfl⟩ := List.cons.inj hw
        refine aft hr rfl ?_
        rcases step _ _ _ e with ⟨h, -⟩ | ⟨h, -⟩ | ⟨h, h'⟩ <;> omega
    have := bef hr rfl (.inl rfl)
    omega

/-! ### The hypotheses are met -/

/-- `Scanner(^text$, 2)` for the text `pire`: the text `prie!` is two edits away. -/
example {P : Policy} {base : Nat} {s : Multi} (hP : Typedef P)
    (hs : compileApprox P base (Fsm.init.appendStr (BeginMark :: [112, 105, 114, 101] ++ [EndMark])) 2 = some s)
    (hb : Placed P base ((Fsm.init.appendStr (BeginMark :: [112, 105, 114, 101] ++ [EndMark])).createApprox 2) s) :
    (s.scn P).final ((s.scn P).after (s.scn P).initial (BeginMark :: [112, 114, 105, 101, 33] ++ [EndMark])) = true := by
  have hw : IsWord (BeginMark :: [112, 105, 114, 101] ++ [EndMark]) := by unfold IsWord; decide
  have hw' : IsWord (BeginMark :: [112, 114, 105, 101, 33] ++ [EndMark]) := by unfold IsWord; decide
  have hc := chain_text hw
  have hg : (Fsm.init.appendStr (BeginMark :: [112, 105, 114, 101] ++ [EndMark])).Good := .of_raw hc.wf hc.raw (.of_false rfl) hc.undetermined
  rw [C46_scanner hP hg (TagsIn.init.of_eq (appendStr_tags ..)) hc.unsparsed hc.undetermined hs hb hw', C46_text hw]
  refine ⟨hw', 2, le_refl _, ?_⟩
  exact .keep _ (.keep _ (.swap _ _ rfl (.keep _ (.add _ (.inr (by simp)) (.keep _ .done)))))

end Pire.Props
