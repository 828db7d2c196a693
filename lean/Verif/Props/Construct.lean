import Verif.Proofs.FsmMore

/-!
# Properties C01–C06, C09–C12: building automata

`Fsm.Lang` (Spec/FsmLang.lean) is the set of words an automaton accepts.  Hypotheses used below:

* `f.WF`: state numbers and letters are in range (C21: every operation preserves it);
* `f.Raw`: no letter has been packed into a class yet (true until Sparse/Determine/Canonize/Complement/RemoveEpsilons);
* `f.Coh`: an explicit entry of a packed letter agrees with the entry of its class;
* `f.AltInv`: the hint "initial state is an alternative" is only set when it is true.
-/

namespace Pire.Props

open Pire Pire.Spec Pire.Fsm

/-! ### C01 -/

/-- A default-constructed automaton accepts exactly the empty word. -/
theorem C01_default_accepts_exactly_empty (w : List Nat) : w ∈ Fsm.init.Lang ↔ w = [] := by
  rw [lang_init]; rfl

/-- `MakeFalse` accepts nothing. -/
theorem C01_makeFalse_accepts_nothing (w : List Nat) : w ∉ Fsm.makeFalse.Lang := by
  rw [lang_makeFalse]; exact Set.notMem_empty w

/-! ### C02 -/

theorem C02_append_char {f : Fsm} (h : f.WF) (hraw : f.Raw) {c : Nat} (hc : IsLetter c) :
    (f.appendChar c).Lang = f.Lang * single [c] := lang_appendChar h hraw hc.2

theorem C02_append_string {f : Fsm} (h : f.WF) (hraw : f.Raw) {s : List Nat} (hs : IsWord s) :
    (f.appendStr s).Lang = f.Lang * single s := (appendStr_props h hraw hs).2.2

theorem C02_append_dot {f : Fsm} (h : f.WF) (hraw : f.Raw) : f.appendDot.Lang = f.Lang * anyByte :=
  lang_appendDot h hraw

/-- What `Append(str)` on a fresh automaton means: exactly that string. -/
theorem C02_literal_automaton {s : List Nat} (hs : IsWord s) (w : List Nat) :
    w ∈ (Fsm.init.appendStr s).Lang ↔ w = s := by
  rw [C02_append_string WF.init rfl hs, lang_init]
  change w ∈ (1 : Language Nat) * _ ↔ _
  rw [one_mul]; rfl

/-- non-vacuity: the hypotheses of C02 hold for `Fsm().Append("ab")`. -/
example : (Fsm.init.appendStr [97, 98]).WF ∧ (Fsm.init.appendStr [97, 98]).Raw :=
  ⟨(appendStr_props WF.init rfl (by unfold IsWord; decide)).1,
    (appendStr_props WF.init rfl (by unfold IsWord; decide)).2.1⟩

/-- The defect: appending a letter that shares a class with another letter and is not the class representative
produces an automaton that accepts nothing, although something should be accepted. -/
theorem C02_append_packed_letter_lost {f : Fsm} (h : f.WF) {c r : Nat} (hc : f.letters.inv c = some r) (hne : c ≠ r) :
    (f.appendChar c).Lang = 0 := by
  have hE : ∀ q d p, (f.appendChar c).Edge q d p → f.Edge q d p := by
    intro q d p e
    rcases (appendChar_edge h c q d p).1 e with e | ⟨_, _, hk⟩
    · exact e
    · exfalso
      have h1 : f.letters.repOr d = c := by rw [← h.key_eq_repOr]; exact hk
      have h2 := h.let_wf.repOr_idem (c := d)
      rw [h1, Partition.repOr, hc] at h2
      exact hne h2.symm
  ext w
  rw [mem_lang]
  constructor
  · rintro ⟨p, hp, hr⟩
    have hi : (f.appendChar c).initial = f.initial := by simp [appendChar, clearFinal, setFinal]
    have hF : (f.appendChar c).finals = {f.size} := by simp [appendChar, clearFinal, setFinal]
    rw [hi] at hr
    rw [hF, Finset.mem_singleton] at hp
    have := h.run_lt (hr.mono hE) h.init_lt
    omega
  · intro h'; exact absurd h' (Set.notMem_empty w)

/-! ### C03 -/

theorem C03_append_strings {f g : Fsm} (hf : f.WF) (hraw : f.Raw) {T : List (List Nat)}
    (hb : ∀ t ∈ T, ∀ c ∈ t, c < 256) (hg : f.appendStrings T = some g) : g.Lang = f.Lang * oneOf T :=
  (appendStrings_spec hf hraw hb hg).2.2.1

/-- It throws exactly when one of the strings is empty. -/
theorem C03_throws_iff_empty {f : Fsm} {T : List (List Nat)} : f.appendStrings T = none ↔ [] ∈ T :=
  appendStrings_none

/-- non-vacuity: strings that are prefixes of each other are accepted as arguments. -/
example : ∃ g, Fsm.init.appendStrings [[97], [97, 98], [97, 98, 99]] = some g := by
  cases h : Fsm.init.appendStrings [[97], [97, 98], [97, 98, 99]] with
  | some g => exact ⟨g, rfl⟩
  | none => exact absurd (appendStrings_none.1 h) (by decide)

/-! ### C04 -/

/-- Full statement: `Lang (a += b) = Lang a * Lang b` for all `a`, `b`. It is false of the code when the initial
state of `b` is final (`C04_concat_with_empty_word_is_wrong`), so it is proved under that guard. -/
theorem C04_concat_partial {f rhs : Fsm} (h : f.WF) (hc : f.Coh) (h2 : rhs.WF) (hc2 : rhs.Coh)
    (hi : rhs.initial ∉ rhs.finals) : (f.concat rhs).Lang = f.Lang * rhs.Lang := lang_concat h hc h2 hc2 hi

/-- Words accepted along a path with at least one transition. -/
def movingWords (f : Fsm) : Language Nat :=
  {w | ∃ c q v, f.Edge f.initial c q ∧ v ∈ f.LangFrom q ∧ w = if c = 257 then v else c :: v}

/-- The exact language of `a += b` in every case: the words of `b` are those read along at least one transition
out of its initial state. -/
theorem C04_concat_exact {f rhs : Fsm} (h : f.WF) (hc : f.Coh) (h2 : rhs.WF) (hc2 : rhs.Coh) :
    (f.concat rhs).Lang = f.Lang * movingWords rhs := by
  obtain ⟨hsize, hinit, hraw, hfin, hE, hwf⟩ := concat_spec h hc h2 hc2
  have hR : ∀ q, q < rhs.size → (f.concat rhs).LangFrom (q + f.size) = rhs.LangFrom q := by
    intro q hq
    refine langFrom_embed (S := (· < rhs.size)) (η := (· + f.size)) (fun _ _ _ _ e => (h2.edge_lt e).2.2) ?_ ?_ hq
    · intro q c p' hq
      rw [hE]
      constructor
      · rintro (e | ⟨_, h3, e⟩ | ⟨h3, _⟩)
        · have := (h.edge_lt e).1; omega
        · exact ⟨p' - f.size, by omega, by simpa using e⟩
        · have := h.fin_lt _ h3; omega
      · rintro ⟨p, rfl, e⟩
        exact .inr (.inl ⟨by omega, by omega, by simpa using e⟩)
    · intro q hq
      rw [hfin]; simp
  ext w
  rw [mem_lang, hinit, Language.mem_mul]
  constructor
  · rintro ⟨p, hp, hr⟩
    have key : ∀ {q w p}, Run (f.concat rhs).Edge q w p → q < f.size → p ∈ (f.concat rhs).finals →
        ∃ u, (∃ r ∈ f.finals, Run f.Edge q u r) ∧ ∃ x, (∃ c q v, rhs.Edge rhs.initial c q ∧ v ∈ rhs.LangFrom q ∧
          x = if c = 257 then v else c :: v) ∧ u ++ x = w := by
      intro q w p hr
      induction hr with
      | refl q => intro hq hp; have := ((hfin _).1 hp).1; omega
      | @eps q q' w p e h' ih =>
        intro hq hp
        rcases (hE _ _ _).1 e with e | ⟨h3, _⟩ | ⟨h3, h4, e⟩
        · obtain ⟨u, ⟨r, hr, hu⟩, x, hx, hw⟩ := ih (h.edge_lt e).2.2 hp
          exact ⟨u, ⟨r, hr, .eps e hu⟩, x, hx, hw⟩
        · omega
        · refine ⟨[], ⟨q, h3, .refl _⟩, w, ⟨257, _, w, e, ?_, by simp⟩, rfl⟩
          rw [← hR _ (h2.edge_lt e).2.2, Nat.sub_add_cancel h4]
          exact ⟨p, hp, h'⟩
      | @step q c q' w p hc e h' ih =>
        intro hq hp
        rcases (hE _ _ _).1 e with e | ⟨h3, _⟩ | ⟨h3, h4, e⟩
        · obtain ⟨u, ⟨r, hr, hu⟩, x, hx, hw⟩ := ih (h.edge_lt e).2.2 hp
          exact ⟨c :: u, ⟨r, hr, .step hc e hu⟩, x, hx, by simp [hw]⟩
        · omega
        · refine ⟨[], ⟨q, h3, .refl _⟩, c :: w, ⟨c, _, w, e, ?_, by simp [hc]⟩, rfl⟩
          rw [← hR _ (h2.edge_lt e).2.2, Nat.sub_add_cancel h4]
          exact ⟨p, hp, h'⟩
    obtain ⟨u, hu, x, hx, hw⟩ := key hr h.init_lt hp
    exact ⟨u, hu, x, hx, hw⟩
  · rintro ⟨u, ⟨r, hr, hu⟩, x, ⟨c, q, v, e, hv, rfl⟩, rfl⟩
    rw [← hR _ (h2.edge_lt e).2.2] at hv
    obtain ⟨p, hp, hv⟩ := hv
    refine ⟨p, hp, (hu.mono fun a c b e => (hE _ _ _).2 (.inl e)).trans ?_⟩
    have e' : (f.concat rhs).Edge r c (q + f.size) := (hE _ _ _).2 (.inr (.inr ⟨hr, by omega, by simpa using e⟩))
    by_cases hc' : c = 257
    · subst hc'; simpa using Run.eps e' hv
    · simpa [hc'] using Run.step hc' e' hv

/-- The defect: `a += Fsm()` (also `a + x*0`, or the pattern `(a)()`) accepts nothing, whatever `a` accepts. -/
theorem C04_concat_with_empty_word_is_wrong {f : Fsm} (h : f.WF) (hc : f.Coh) : (f.concat Fsm.init).Lang = 0 := by
  rw [C04_concat_exact h hc WF.init init_raw.coh]
  ext w
  rw [Language.mem_mul]
  constructor
  · rintro ⟨_, _, _, ⟨_, _, _, e, _⟩, _⟩
    exact absurd e (init_edge _ _ _)
  · intro h; exact absurd h (Set.notMem_empty w)

/-- ... while the right answer would contain the word `a`. -/
example : [97] ∈ (Fsm.init.appendChar 97).Lang * Fsm.init.Lang := by
  rw [lang_init, lang_appendChar WF.init rfl (by decide), lang_init]
  refine Language.mem_mul.2 ⟨[97], ?_, [], rfl, rfl⟩
  exact Language.mem_mul.2 ⟨[], rfl, [97], rfl, rfl⟩

/-- non-vacuity of `C04_concat_partial`. -/
example : (Fsm.init.appendChar 97).WF ∧ (Fsm.init.appendChar 97).Coh ∧
    (Fsm.init.appendChar 97).initial ∉ (Fsm.init.appendChar 97).finals :=
  ⟨WF.init.appendChar (by decide), (Raw.appendChar init_raw 97).coh, by
    simp [appendChar, clearFinal, setFinal, Fsm.init]⟩

/-! ### C05 -/

theorem C05_union {f rhs : Fsm} (h : f.WF) (hc : f.Coh) (ha : f.AltInv) (h2 : rhs.WF) (hc2 : rhs.Coh)
    (ha2 : rhs.AltInv) (w : List Nat) : w ∈ (f.union rhs).Lang ↔ w ∈ f.Lang ∨ w ∈ rhs.Lang := by
  rw [(union_shape h hc ha h2 hc2 ha2).lang, Language.mem_add]

/-- Any chain `a | b1 | b2 | ...` accepts exactly the words accepted by one of the operands. -/
theorem C05_union_chain {f : Fsm} (h : f.WF) (hc : f.Coh) (ha : f.AltInv) (l : List Fsm)
    (hl : ∀ g ∈ l, g.WF ∧ g.Coh ∧ g.AltInv) (w : List Nat) :
    w ∈ (l.foldl Fsm.union f).Lang ↔ w ∈ f.Lang ∨ ∃ g ∈ l, w ∈ g.Lang := by
  induction l generalizing f with
  | nil => simp
  | cons g l ih =>
    have hg := hl g (by simp)
    have us := union_shape h hc ha hg.1 hg.2.1 hg.2.2
    rw [List.foldl_cons, ih us.wf us.raw.coh us.altInv (fun x hx => hl x (by simp [hx])),
      C05_union h hc ha hg.1 hg.2.1 hg.2.2]
    simp [or_assoc]

/-- non-vacuity, with the hint set on one operand: (`a` | `b`) | `c`. -/
example : let a := Fsm.init.appendChar 97; let b := Fsm.init.appendChar 98
    (a.union b).WF ∧ (a.union b).Coh ∧ (a.union b).AltInv ∧ (a.union b).isAlt = true := by
  have wa : (Fsm.init.appendChar 97).WF := WF.init.appendChar (by decide)
  have wb : (Fsm.init.appendChar 98).WF := WF.init.appendChar (by decide)
  have us := union_shape wa (Raw.appendChar init_raw 97).coh (AltInv.of_false (by simp [appendChar, clearFinal, setFinal, connectFinal, clearHints]))
    wb (Raw.appendChar init_raw 98).coh (AltInv.of_false (by simp [appendChar, clearFinal, setFinal, connectFinal, clearHints]))
  exact ⟨us.wf, us.raw.coh, us.altInv, us.isAlt⟩

/-! ### C06 -/

theorem C06_iterate {f : Fsm} (h : f.WF) (w : List Nat) :
    w ∈ f.iterate.Lang ↔ ∃ ws : List (List Nat), w = ws.flatten ∧ ∀ v ∈ ws, v ∈ f.Lang := by
  rw [lang_iterate h, Language.mem_kstar]

/-! ### C09 -/

theorem C09_power {f : Fsm} (h : f.WF) (hc : f.Coh) (hi : f.initial ∉ f.finals) (n : Nat) :
    (f.power n).Lang = f.Lang ^ n := (power_spec h hc hi n).2.2

/-- The guard matters: with a final initial state `x*2` already loses words. -/
theorem C09_power_of_empty_word_is_wrong : (Fsm.init.power 1).Lang = 0 ∧ [] ∈ Fsm.init.Lang ^ 1 := by
  refine ⟨C04_concat_with_empty_word_is_wrong WF.init init_raw.coh, ?_⟩
  rw [pow_one, lang_init]; rfl

/-! ### C10 -/

theorem C10_prepend_anything {f : Fsm} (h : f.WF) (w : List Nat) :
    w ∈ f.prependAnything.Lang ↔ ∃ u v, w = u ++ v ∧ IsWord u ∧ v ∈ f.Lang := by
  rw [lang_prependAnything h, Language.mem_mul]
  constructor
  · rintro ⟨u, hu, v, hv, rfl⟩; exact ⟨u, v, rfl, hu, hv⟩
  · rintro ⟨u, v, rfl, hu, hv⟩; exact ⟨u, hu, v, hv, rfl⟩

theorem C10_append_anything {f : Fsm} (h : f.WF) (w : List Nat) :
    w ∈ f.appendAnything.Lang ↔ ∃ u v, w = u ++ v ∧ u ∈ f.Lang ∧ IsWord v := by
  rw [lang_appendAnything h, Language.mem_mul]
  constructor
  · rintro ⟨u, hu, v, hv, rfl⟩; exact ⟨u, v, rfl, hu, hv⟩
  · rintro ⟨u, v, rfl, hu, hv⟩; exact ⟨u, hu, v, hv, rfl⟩

theorem C10_surround {f : Fsm} (h : f.WF) (w : List Nat) :
    w ∈ f.surround.Lang ↔ ∃ u x v, w = u ++ x ++ v ∧ IsWord u ∧ x ∈ f.Lang ∧ IsWord v := by
  rw [surround, C10_append_anything h.prependAnything]
  constructor
  · rintro ⟨y, v, rfl, hy, hv⟩
    obtain ⟨u, x, rfl, hu, hx⟩ := (C10_prepend_anything h _).1 hy
    exact ⟨u, x, v, rfl, hu, hx, hv⟩
  · rintro ⟨u, x, v, rfl, hu, hx, hv⟩
    exact ⟨u ++ x, v, rfl, (C10_prepend_anything h _).2 ⟨u, x, rfl, hu, hx⟩, hv⟩

/-! ### C11 -/

theorem C11_reverse {f : Fsm} (h : f.WF) (w : List Nat) : w ∈ f.reverse.Lang ↔ w.reverse ∈ f.Lang := by
  rw [lang_reverse h]; rfl

theorem C11_reverse_twice {f : Fsm} (h : f.WF) : f.reverse.reverse.Lang = f.Lang := by
  ext w; rw [C11_reverse h.reverse, C11_reverse h, List.reverse_reverse]

/-! ### C12, MakeSuffix -/

/-- Full statement: `MakeSuffix` accepts exactly the suffixes of accepted words. False of the code in general (two
witnesses below); true when every state is reachable and the initial state has no incoming transition. -/
theorem C12_makeSuffix_partial {f : Fsm} (h : f.WF)
    (hreach : ∀ q, q < f.size → ∃ u, Run f.Edge f.initial u q) (hno : ∀ q c, ¬ f.Edge q c f.initial)
    (w : List Nat) : w ∈ f.makeSuffix.Lang ↔ ∃ u, u ++ w ∈ f.Lang := by
  rw [lang_makeSuffix h hreach hno]; rfl

/-- What `MakeSuffix` accepts in every case, without hypotheses: words cut into pieces `x₁ x₂ ... xₙ y`, where the automaton
leads from *some* state (reachable or not) to the initial state along each `xᵢ`, and from some state to a final one along `y`.
With no way back to the initial state and all states reachable only `y` is left: `C12_makeSuffix_partial`. -/
theorem C12_makeSuffix_exact {f : Fsm} (h : f.WF) (w : List Nat) :
    w ∈ f.makeSuffix.Lang ↔ ∃ (xs : List (List Nat)) (y : List Nat), w = xs.flatten ++ y ∧
      (∀ x ∈ xs, ∃ q, q < f.size ∧ Run f.Edge q x f.initial) ∧ ∃ q p, q < f.size ∧ p ∈ f.finals ∧ Run f.Edge q y p := by
  obtain ⟨h1, h2, h3, h4⟩ := makeSuffix_fields f
  have jump : ∀ {q x p}, q < f.size → Run f.Edge q x p → Run f.makeSuffix.Edge f.initial x p := by
    intro q x p hq hr
    have up := hr.mono (E' := f.makeSuffix.Edge) (fun a c b e => (makeSuffix_edge h _ _ _).2 (.inl e))
    by_cases hqi : q = f.initial
    · rwa [hqi] at up
    · exact .eps ((makeSuffix_edge h _ _ _).2 (.inr ⟨rfl, hq, hqi, rfl⟩)) up
  constructor
  · rintro ⟨p, hp, hr⟩
    rw [h3] at hp
    rw [h2] at hr
    have key : ∀ {q p : Nat} {w : List Nat}, Run f.makeSuffix.Edge q w p → p ∈ f.finals → q < f.size →
        Run f.Edge q w p ∨ ∃ (x : List Nat) (xs : List (List Nat)) (y : List Nat), w = x ++ xs.flatten ++ y ∧ Run f.Edge q x f.initial ∧
          (∀ x ∈ xs, ∃ q, q < f.size ∧ Run f.Edge q x f.initial) ∧ ∃ q p, q < f.size ∧ p ∈ f.finals ∧ Run f.Edge q y p := by
      intro q p w hr
      induction hr with
      | refl q => intro _ _; exact .inl (.refl q)
      | eps e r ih =>
        intro hp hq
        rcases (makeSuffix_edge h _ _ _).1 e with e | ⟨rfl, hb, -, -⟩
        · rcases ih hp (h.edge_lt e).2.2 with r' | ⟨x, xs, y, rfl, hx, hxs, hy⟩
          · exact .inl (.eps e r')
          · exact .inr ⟨x, xs, y, rfl, .eps e hx, hxs, hy⟩
        · rcases ih hp hb with r' | ⟨x, xs, y, rfl, hx, hxs, hy⟩
          · exact .inr ⟨[], [], _, rfl, .refl _, nofun, _, _, hb, hp, r'⟩
          · refine .inr ⟨[], x :: xs, y, by simp, .refl _, fun z hz => ?_, hy⟩
            rcases List.mem_cons.1 hz with rfl | hz
            · exact ⟨_, hb, hx⟩
            · exact hxs z hz
      | step hc e r ih =>
        intro hp hq
        rcases (makeSuffix_edge h _ _ _).1 e with e | ⟨-, -, -, e⟩
        · rcases ih hp (h.edge_lt e).2.2 with r' | ⟨x, xs, y, rfl, hx, hxs, hy⟩
          · exact .inl (.step hc e r')
          · exact .inr ⟨_ :: x, xs, y, rfl, .step hc e hx, hxs, hy⟩
        · exact absurd e hc
    rcases key hr hp h.init_lt with r' | ⟨x, xs, y, rfl, hx, hxs, hy⟩
    · exact ⟨[], w, rfl, nofun, _, _, h.init_lt, hp, r'⟩
    · refine ⟨x :: xs, y, by simp, fun z hz => ?_, hy⟩
      rcases List.mem_cons.1 hz with rfl | hz
      · exact ⟨_, h.init_lt, hx⟩
      · exact hxs z hz
  · rintro ⟨xs, y, rfl, hxs, q, p, hq, hp, hr⟩
    refine ⟨p, by rw [h3]; exact hp, ?_⟩
    rw [h2]
    induction xs with
    | nil => exact jump hq hr
    | cons x xs ih =>
      obtain ⟨q', hq', hx⟩ := hxs x List.mem_cons_self
      rw [List.flatten_cons, List.append_assoc]
      exact (jump hq' hx).trans (ih fun z hz => hxs z (List.mem_cons_of_mem _ hz))

/-- In particular no suffix of an accepted word is lost. -/
theorem C12_makeSuffix_contains_suffixes {f : Fsm} (h : f.WF) {u w : List Nat} (hw : u ++ w ∈ f.Lang) : w ∈ f.makeSuffix.Lang := by
  obtain ⟨p, hp, hr⟩ := hw
  obtain ⟨q, hq, hr⟩ := hr.split
  exact (C12_makeSuffix_exact h w).2 ⟨[], w, rfl, nofun, q, p, h.run_lt hq h.init_lt, hp, hr⟩

/-- non-vacuity: `Fsm().Append('a')`. -/
example : (∀ q, q < (Fsm.init.appendChar 97).size → ∃ u, Run (Fsm.init.appendChar 97).Edge (Fsm.init.appendChar 97).initial u q) ∧
    ∀ q c, ¬ (Fsm.init.appendChar 97).Edge q c (Fsm.init.appendChar 97).initial := by
  have hE := appendChar_edge WF.init 97
  have hi : (Fsm.init.appendChar 97).initial = 0 := by simp [appendChar, clearFinal, setFinal, Fsm.init]
  rw [hi]
  constructor
  · intro q hq
    simp only [appendChar, clearFinal, setFinal, connectFinal_size, resize_size] at hq
    have : q = 0 ∨ q = 1 := by simp only [Fsm.init] at hq; omega
    rcases this with rfl | rfl
    · exact ⟨[], .refl _⟩
    · exact ⟨[97], Run.one (by decide) ((hE _ _ _).2 (.inr ⟨by simp [Fsm.init], rfl, by simp [key_raw init_raw]⟩))⟩
  · intro q c e
    rcases (hE _ _ _).1 e with e | ⟨_, e, _⟩
    · exact init_edge _ _ _ e
    · simp [Fsm.init] at e

/-- Two states, `0 -a-> 1 -b-> 0`, initial and final state 0: accepts `(ab)*`. -/
def suffixLoop : Fsm := ((Fsm.init.resize 2).connect 0 1 97).connect 1 0 98

/-- With a re-entered initial state `MakeSuffix` accepts `bb`, which is no suffix of a word of `(ab)*`. -/
theorem C12_makeSuffix_loop_is_wrong :
    [98, 98] ∈ suffixLoop.makeSuffix.Lang ∧ ¬ ∃ u, u ++ [98, 98] ∈ suffixLoop.Lang := by
  have h0 : (Fsm.init.resize 2).WF := WF.init.resize (by decide)
  have h1 : ((Fsm.init.resize 2).connect 0 1 97).WF := h0.connect (by decide) (by decide) (by decide)
  have h : suffixLoop.WF := h1.connect (by decide) (by decide) (by decide)
  have hraw : suffixLoop.Raw := rfl
  have hE : ∀ q c p, suffixLoop.Edge q c p ↔ (q = 0 ∧ p = 1 ∧ c = 97) ∨ (q = 1 ∧ p = 0 ∧ c = 98) := by
    intro q c p
    rw [suffixLoop, edge_connect, edge_connect, resize_edge WF.init (by decide), key_raw (by rfl), key_raw (by rfl)]
    simp [init_edge]
  have hS := makeSuffix_edge h
  constructor
  · refine ⟨0, by simp [makeSuffix, clearHints, suffixLoop, Fsm.init], ?_⟩
    have e1 : suffixLoop.makeSuffix.Edge 0 257 1 := (hS _ _ _).2 (.inr ⟨rfl, by decide, by decide, rfl⟩)
    have e2 : suffixLoop.makeSuffix.Edge 1 98 0 := (hS _ _ _).2 (.inl ((hE _ _ _).2 (.inr ⟨rfl, rfl, rfl⟩)))
    exact .eps e1 (.step (by decide) e2 (.eps e1 (.step (by decide) e2 (.refl _))))
  · rintro ⟨u, p, hp, hr⟩
    obtain ⟨q, -, hr⟩ := hr.split
    have noeps : ∀ a b, ¬ suffixLoop.Edge a 257 b := by
      intro a b e
      rcases (hE _ _ _).1 e with e | e <;> omega
    cases hr with
    | eps e _ => exact noeps _ _ e
    | step _ e h' =>
      cases h' with
      | eps e _ => exact noeps _ _ e
      | step _ e' _ =>
        rcases (hE _ _ _).1 e with e | e <;> rcases (hE _ _ _).1 e' with e' | e' <;> omega

/-- Three states, `1 -a-> 2`, initial state 0, final state 2: accepts nothing. -/
def suffixUnreachable : Fsm := ((Fsm.init.resize 3).connect 1 2 97).clearFinal.setFinal 2 true

/-- With unreachable states `MakeSuffix` accepts words although the language is empty. -/
theorem C12_makeSuffix_unreachable_is_wrong :
    [97] ∈ suffixUnreachable.makeSuffix.Lang ∧ ¬ ∃ u, u ++ [97] ∈ suffixUnreachable.Lang := by
  have h0 : (Fsm.init.resize 3).WF := WF.init.resize (by decide)
  have h1 : ((Fsm.init.resize 3).connect 1 2 97).WF := h0.connect (by decide) (by decide) (by decide)
  have h : suffixUnreachable.WF := h1.clearFinal.setFinal (by decide)
  have hE : ∀ q c p, suffixUnreachable.Edge q c p ↔ (q = 1 ∧ p = 2 ∧ c = 97) := by
    intro q c p
    have : suffixUnreachable.Edge = ((Fsm.init.resize 3).connect 1 2 97).Edge := edge_congr rfl rfl
    rw [this, edge_connect, resize_edge WF.init (by decide), key_raw (by rfl)]
    simp [init_edge]
  have hS := makeSuffix_edge h
  constructor
  · refine ⟨2, by simp [makeSuffix, clearHints, suffixUnreachable, setFinal], ?_⟩
    have e1 : suffixUnreachable.makeSuffix.Edge 0 257 1 := (hS _ _ _).2 (.inr ⟨rfl, by decide, by decide, rfl⟩)
    have e2 : suffixUnreachable.makeSuffix.Edge 1 97 2 := (hS _ _ _).2 (.inl ((hE _ _ _).2 ⟨rfl, rfl, rfl⟩))
    exact .eps e1 (.step (by decide) e2 (.refl _))
  · rintro ⟨u, p, hp, hr⟩
    have hp2 : p = 2 := by simpa [suffixUnreachable, setFinal, clearFinal] using hp
    have := hr.stuck (fun c b e => by
      have := ((hE _ _ _).1 e).1
      simp [suffixUnreachable, setFinal, clearFinal, Fsm.init] at this)
    have h2 := this.2
    rw [hp2] at h2
    simp [suffixUnreachable, setFinal, clearFinal, Fsm.init] at h2

end Pire.Props
