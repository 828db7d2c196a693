import Verif.Proofs.CaptureLab
import Verif.Proofs.Pattern
import Verif.Proofs.ZeroOut
import Verif.Proofs.Tags

/-!
# The operations of the parser on automata with a capture group
-/

namespace Pire
namespace Capture
open Spec Pire.Lex Pire.Enc

/-! ### Automata that say nothing -/

/-- All the outputs are zero. -/
def Still (f : Fsm) : Prop := OutIn f ∧ f.ZeroOut

theorem Still.silent {f : Fsm} (h : Still f) (q p : Nat) : Silent (f.output q p) := by rw [h.2.output]; exact silent_zero

theorem Still.init : Still Fsm.init := ⟨nofun, nofun⟩

theorem Still.makeFalse : Still Fsm.makeFalse := ⟨nofun, nofun⟩

theorem Still.of_eq {f g : Fsm} (h : Still f) (ho : g.outputs = f.outputs) (hs : f.size ≤ g.size) : Still g :=
  ⟨h.1.mono ho hs, h.2.of_eq ho⟩

theorem Still.determine {f : Fsm} (h : Still f) (hw : f.WF) (hd : f.determined = false) (m : Nat) (hok : (f.determine m).2 = true) : Still (f.determine m).1 := by
  refine ⟨?_, h.2.determine m⟩
  have hdet := ((Fsm.determine_spec hw hd m).1 hok).1.wf
  revert hdet hok
  unfold Fsm.determine
  rw [if_neg (by simp [hd])]
  simp only
  cases f.removeEpsilons.determineTask.run (if m ≠ 0 then m else 200000) with
  | none => simp
  | some r =>
    obtain ⟨states, conns⟩ := r
    simp only [forall_const]
    intro hwf q p v hv
    have hsz := (Fsm.build_fields f.removeEpsilons states conns).1
    have hv' : ((f.removeEpsilons.buildDetermined states conns).outputs q).bind (· p) = some v := hv
    have hdst : ∀ c, (Fsm.swapFrom f.removeEpsilons (f.removeEpsilons.buildDetermined states conns)).dst q c =
      (f.removeEpsilons.buildDetermined states conns).dst q c := fun c => rfl
    show q < (f.removeEpsilons.buildDetermined states conns).size ∧ p < (f.removeEpsilons.buildDetermined states conns).size
    unfold Fsm.buildDetermined at hv'
    simp only at hv'
    split at hv'
    · next hq =>
      simp only [Option.bind_some] at hv'
      split at hv'
      · next hany =>
        obtain ⟨c, -, hc⟩ := List.any_eq_true.1 hany
        rw [decide_eq_true_eq] at hc
        refine ⟨by rw [hsz]; exact hq, ?_⟩
        exact (hwf.dst_lt (q := q) (c := c) (p := p) hc).2.2
      · cases hv'
    · cases hv'

theorem Still.minimize {f : Fsm} (h : Still f) (hd : f.Det) : Still f.minimize := by
  refine ⟨?_, h.2.minimize⟩
  have hm := hd.minSpec
  unfold Fsm.minimize
  rw [if_pos hd.flag]
  simp only
  generalize (f.minTask.run f.minCls f.minClasses).cls = cls at hm ⊢
  generalize (f.minTask.run f.minCls f.minClasses).classes = n at hm ⊢
  intro q p v hv
  have hv' : ((f.mergeClasses cls n).outputs q).bind (· p) = some v := hv
  show q < (f.mergeClasses cls n).size ∧ p < (f.mergeClasses cls n).size
  rw [(Fsm.mergeClasses_fields f cls n).1]
  unfold Fsm.mergeClasses at hv'
  simp only at hv'
  split at hv'
  · simp only [Option.bind_some] at hv'
    have hm' := List.mem_of_mem_head? hv'
    obtain ⟨a, ha', ha⟩ := List.mem_flatMap.1 hm'
    obtain ⟨b, hb', hb⟩ := List.mem_filterMap.1 ha
    split at hb
    · next hx =>
      rw [List.mem_range] at ha' hb'
      rw [← hx.1, ← hx.2]
      exact ⟨hm.lt a ha', hm.lt b hb'⟩
    · cases hb
  · cases hv'

theorem Still.complement {f g : Fsm} (h : Still f) (hw : f.WF) (hd : f.determined = false) (hg : f.complement = some g) : Still g := by
  rw [Fsm.complement_eq] at hg
  split at hg
  · next hok =>
    injection hg with hg
    subst hg
    have h1 := h.determine hw hd 0 hok
    have h2 := h1.minimize ((Fsm.determine_spec hw hd 0).1 hok).1
    refine h2.of_eq ?_ (by rw [(Fsm.complementCore_fields _).1]; omega)
    generalize (f.determine).1.minimize = k
    unfold Fsm.complementCore
    simp [Fsm.clearFinal, Fsm.setFinal, Fsm.resize]
  · cases hg

theorem removeDeadEnds_keeps (f : Fsm) : f.removeDeadEnds.outputs = f.outputs ∧ f.removeDeadEnds.tags = f.tags := by
  unfold Fsm.removeDeadEnds
  generalize elems f.deadStates = l
  change (List.foldl Fsm.removeState f l).outputs = _ ∧ (List.foldl Fsm.removeState f l).tags = _
  induction l generalizing f with
  | nil => exact ⟨rfl, rfl⟩
  | cons a l ih => rw [List.foldl_cons]; exact ih (f.removeState a)

theorem Still.removeDeadEnds {f : Fsm} (h : Still f) : Still f.removeDeadEnds :=
  h.of_eq (removeDeadEnds_keeps f).1 (Fsm.removeDeadEnds_fields f).1.ge

theorem Still.union {f g : Fsm} (h : Still f) (hw : f.WF) (hc : f.Coh) (h' : Still g) (hw' : g.WF) (hc' : g.Coh) : Still (f.union g) := by
  have hu := union_edges hw hc hw' hc'
  constructor
  · exact (Lab.union (Lab.quiet (L := 0) h.1 h.silent) hw hc (Lab.quiet h'.1 h'.silent) hw' hc').out
  · intro q p v hv
    rw [hu.outputs, import_stored h.1 h'.1] at hv
    split at hv
    · exact h.2 q p v hv
    · split at hv
      · exact h'.2 _ _ v hv
      · cases hv

/-! ### Appending -/

theorem asMid_outputs (s : Fsm.ASt × Nat) (c : Nat) : (Fsm.asMid s c).1.fsm.outputs = s.1.fsm.outputs := by
  unfold Fsm.asMid
  simp only
  split <;> rfl

theorem asMid_fold_outputs (l : List Nat) (s : Fsm.ASt × Nat) : (l.foldl Fsm.asMid s).1.fsm.outputs = s.1.fsm.outputs := by
  induction l generalizing s with
  | nil => rfl
  | cons c l ih => rw [List.foldl_cons, ih, asMid_outputs]

theorem connectFinal_outputs (f : Fsm) (p c : Nat) : (f.connectFinal p c).outputs = f.outputs := by
  unfold Fsm.connectFinal; exact Fsm.connectAll_outputs _ _

theorem foldl_outputs {β : Type} {F : Fsm → β → Fsm} (h : ∀ f x, (F f x).outputs = f.outputs) (l : List β) (f : Fsm) :
    (l.foldl F f).outputs = f.outputs := by
  induction l generalizing f with
  | nil => rfl
  | cons x l ih => rw [List.foldl_cons, ih, h]

theorem asStep_outputs (fin : Nat) (st : Fsm.ASt) (s : List Nat) : (Fsm.asStep fin st s).fsm.outputs = st.fsm.outputs := by
  unfold Fsm.asStep
  split
  · rfl
  · exact connectFinal_outputs ..
  · rename_i c cs _
    simp only
    have := asMid_fold_outputs cs.dropLast
    split
    · exact (this _).trans (connectFinal_outputs ..)
    · exact this _

theorem asFold_outputs (fin : Nat) (l : List (List Nat)) (st : Fsm.ASt) : (l.foldl (Fsm.asStep fin) st).fsm.outputs = st.fsm.outputs := by
  induction l generalizing st with
  | nil => rfl
  | cons s l ih => rw [List.foldl_cons, ih, asStep_outputs]

/-- `g` is `f` with something appended that says nothing. -/
structure Appended (f g : Fsm) : Prop where
  size : f.size ≤ g.size
  outputs : g.outputs = f.outputs
  tags : g.tags = f.tags
  edge : ∀ q c p, g.Edge q c p → f.Edge q c p ∨ ((q ∈ f.finals ∨ f.size ≤ q) ∧ f.size ≤ p)
  init : g.initial = f.initial
  fin : ∀ q ∈ g.finals, f.size ≤ q
  alt : g.isAlt = false

theorem appended_strings {f g : Fsm} (hf : f.WF) (hraw : f.Raw) (ha : f.isAlt = false) (hd : f.determined = false) {T : List (List Nat)}
    (hb : ∀ t ∈ T, ∀ c ∈ t, c < 256) (hg : f.appendStrings T = some g) : Appended f g := by
  have hg' := hg
  have hne : ∀ t ∈ T, t ≠ [] := by
    intro t ht he
    subst he
    rw [Fsm.appendStrings_none.2 ht] at hg; cases hg
  have h0 : Fsm.ASInv f [] { fsm := f.resize (f.size + 1), start := fun _ => 0, ltr := fun _ _ => 0 } (fun _ => []) := by
    have hE := Fsm.resize_edge hf (n := f.size + 1) (by omega)
    refine ⟨hf.resize (by omega), hraw, rfl, rfl, by simp, ?_, ?_, ?_, ?_, ?_⟩
    · intro q c p e; simp only [hE]; exact e
    · intro q c p e; simp only [hE] at e; exact .inl e
    all_goals simp
  obtain ⟨π, h⟩ := Fsm.asInv_loop hf h0 (T := T) (fun t ht => ⟨hne t ht, hb t ht⟩)
  rw [List.nil_append] at h
  have hout := asFold_outputs f.size T { fsm := f.resize (f.size + 1), start := fun _ => 0, ltr := fun _ _ => 0 }
  unfold Fsm.appendStrings at hg
  split at hg
  · cases hg
  · simp only [Fsm.resize_size, Nat.add_sub_cancel, Option.some.injEq] at hg
    obtain ⟨st, hst⟩ : ∃ st, st = T.foldl (Fsm.asStep f.size) { fsm := f.resize (f.size + 1), start := fun _ => 0, ltr := fun _ _ => 0 } := ⟨_, rfl⟩
    rw [← hst] at hg h hout
    have gE : g.Edge = st.fsm.Edge := by rw [← hg]; exact Fsm.edge_congr rfl rfl
    have gF : g.finals = {f.size} := by rw [← hg]; simp [Fsm.setFinal, Fsm.clearFinal]
    have gS : g.size = st.fsm.size := by rw [← hg]; rfl
    refine ⟨by rw [gS]; exact h.size_lt.le, by rw [← hg]; exact hout, Fsm.appendStrings_tags hg', ?_, by rw [← hg]; exact h.init_eq, ?_,
      (Fsm.appendStrings_flags ha hd hg').1⟩
    · intro q c p e
      rw [gE] at e
      rcases h.sound _ _ _ e with e | ⟨-, ⟨h1, h2, -⟩ | ⟨h1, h2, -⟩ | ⟨h1, h2, -⟩ | ⟨h1, h2, -⟩⟩
      · exact .inl e
      · exact .inr ⟨.inl h1, h2.ge⟩
      · exact .inr ⟨.inl h1, h2.le⟩
      · exact .inr ⟨.inr h1.le, h2.ge⟩
      · exact .inr ⟨.inr h1.le, h2.le⟩
    · intro q hq; rw [gF, Finset.mem_singleton] at hq; omega

theorem appended_dot (e : Encoding) {f : Fsm} (ha : Parse.Appendable f) : Appended f (e.appendDot f) := by
  have hw := ha.good.wf
  cases e with
  | latin1 =>
    change Appended f f.appendDot
    obtain ⟨h1, h2, h3, h4⟩ := Fsm.appendLetters_fields f (List.range 256)
    refine ⟨?_, ?_, Fsm.appendDot_tags f, ?_, h2, ?_, ?_⟩
    · change f.size ≤ (f.appendLetters (List.range 256)).size; omega
    · unfold Fsm.appendDot Fsm.appendLetters
      generalize List.range 256 = l
      exact foldl_outputs (F := fun g c => g.connectFinal (g.size - 1) c) (fun f c => connectFinal_outputs f _ c) l (f.resize (f.size + 1))
    · intro q c p hx
      rcases (Fsm.appendLetters_edge hw _ _ _ _).1 hx with hx' | ⟨hx', rfl, -⟩
      · exact .inl hx'
      · exact .inr ⟨.inl hx', le_rfl⟩
    · intro q hq
      have hq' : q ∈ (f.appendLetters (List.range 256)).finals := hq
      rw [h3, Finset.mem_singleton] at hq'; omega
    · rw [Fsm.appendDot]
      generalize List.range 256 = l
      exact Fsm.foldl_connectFinal_isAlt _ _ ha.isAlt
  | utf8 =>
    change Appended f (utf8AppendDot f)
    obtain ⟨h1, h2, h3, h4, h5, h6, h7, h8⟩ := utf8AppendDot_spec hw ha.raw ha.isAlt
    have keep : (utf8AppendDot f).outputs = f.outputs ∧ (utf8AppendDot f).tags = f.tags := by
      constructor
      · have h1 : (utf8AppendDot f).outputs = (utf8DotNext f.size (utf8DotFirst (f.resize (f.size + utfMaxLen)))).outputs := by
          simp only [utf8AppendDot, Fsm.clearFinal, Fsm.setFinal]
        have h2 : ∀ k : Fsm, (utf8DotNext f.size k).outputs = k.outputs := by
          intro k
          unfold utf8DotNext
          generalize List.range (utfMaxLen - 1) = l
          generalize letterRange utfNext = m
          exact foldl_outputs (fun g i => foldl_outputs (F := fun f letter => f.connect _ _ letter) (fun g l => rfl) _ g) _ _
        have h3 : ∀ k : Fsm, (utf8DotFirst k).outputs = k.outputs := by
          intro k
          unfold utf8DotFirst
          generalize List.range utfMaxLen = l
          exact foldl_outputs (fun g i => foldl_outputs (fun g l => connectFinal_outputs _ _ _) _ g) _ _
        rw [h1, h2, h3]; rfl
      · have h1 : (utf8AppendDot f).tags = (utf8DotNext f.size (utf8DotFirst (f.resize (f.size + utfMaxLen)))).tags := by
          simp only [utf8AppendDot, Fsm.clearFinal, Fsm.setFinal]
        have h2 : ∀ k : Fsm, (utf8DotNext f.size k).tags = k.tags := by
          intro k
          unfold utf8DotNext
          generalize List.range (utfMaxLen - 1) = l
          generalize letterRange utfNext = m
          exact Fsm.foldl_tags (fun g i => Fsm.foldl_tags (F := fun f letter => f.connect _ _ letter) (fun g l => rfl) _ g) _ _
        have h3 : ∀ k : Fsm, (utf8DotFirst k).tags = k.tags := by
          intro k
          unfold utf8DotFirst
          generalize List.range utfMaxLen = l
          exact Fsm.foldl_tags (fun g i => Fsm.foldl_tags (fun g l => Fsm.connectFinal_tags _ _ _) _ g) _ _
        rw [h1, h2, h3]; rfl
    refine ⟨by omega, keep.1, keep.2, ?_, h2, ?_, h6⟩
    · intro q c p hx
      rcases (h8 _ _ _).1 hx with hx' | ⟨hx', i, hi, rfl, -⟩ | ⟨i, hi, rfl, rfl, -⟩
      · exact .inl hx'
      · exact .inr ⟨.inl hx', by omega⟩
      · exact .inr ⟨.inr (by omega), by omega⟩
    · intro q hq; rw [h3, Finset.mem_singleton] at hq; omega

theorem appended_char {f : Fsm} (hw : f.WF) (c : Nat) : Appended f (f.appendChar c) := by
  refine ⟨by rw [Fsm.appendChar_size]; omega, ?_, Fsm.appendChar_tags f c, ?_, Fsm.appendChar_initial f c, ?_, (Fsm.appendChar_flags f c).1⟩
  · simp [Fsm.appendChar, Fsm.setFinal, Fsm.clearFinal, Fsm.resize, Fsm.connectFinal, Fsm.clearHints]
  · intro q d p hx
    rcases (Fsm.appendChar_edge hw _ _ _ _).1 hx with hx' | ⟨hx', rfl, -⟩
    · exact .inl hx'
    · exact .inr ⟨.inl hx', le_rfl⟩
  · intro q hq; rw [Fsm.appendChar_finals, Finset.mem_singleton] at hq; omega

/-! ### Automata with a group -/

/-- A well formed automaton that may have one group in it, with texts in `o`; `must`: every match passes the group; `z`: a match may also begin in the
first state. -/
structure Marked (z : Bool) (o : Option (Language Nat)) (must : Bool) (f : Fsm) : Prop where
  good : f.Good
  bnd : ∀ q p, f.output q p < 16
  tags : f.TagsIn (· = 0)
  lab : ∃ In R Pre, Lab (o.getD 0) f In R Pre ∧ (o = none → ∀ q, ¬ In q) ∧ (must = true → Pre f.initial) ∧ (z = true → ¬ In 0 ∧ (must = true → Pre 0) ∧
    (f.initial = 0 ∨ f.isAlt = true ∧ f.Edge f.initial 257 0))

variable {z z' must must' : Bool} {o o' : Option (Language Nat)} {f g : Fsm}

theorem Marked.weaken (h : Marked z o must f) : Marked false o must f := by
  obtain ⟨h1, h2, h3, In, R, Pre, h4, h5, h6, -⟩ := h
  exact ⟨h1, h2, h3, In, R, Pre, h4, h5, h6, nofun⟩

theorem Marked.optional (h : Marked z o must f) : Marked z o false f := by
  obtain ⟨h1, h2, h3, In, R, Pre, h4, h5, h6, h7⟩ := h
  exact ⟨h1, h2, h3, In, R, Pre, h4, h5, nofun, fun hz => ⟨(h7 hz).1, nofun, (h7 hz).2.2⟩⟩

/-- Without a group. -/
theorem Marked.still (h : f.Good) (hs : Still f) (ht : f.TagsIn (· = 0)) (hz : z = true → f.initial = 0) : Marked z none false f :=
  ⟨h, fun q p => by rw [hs.2.output]; omega, ht, _, _, _, Lab.quiet hs.1 hs.silent, fun _ _ => id, nofun, fun h => ⟨id, nofun, .inl (hz h)⟩⟩

theorem Marked.init : Marked z none false Fsm.init := .still .init .init .init fun _ => rfl

/-- Nothing matches. -/
theorem Marked.makeFalse (z : Bool) (o : Option (Language Nat)) (must : Bool) : Marked z o must Fsm.makeFalse := by
  have h := Lab.quiet (L := o.getD 0) Still.makeFalse.1 Still.makeFalse.silent
  have he : ∀ q c p, ¬ Fsm.makeFalse.Edge q c p := by
    intro q c p hx
    have e : Fsm.makeFalse.Edge = Fsm.init.Edge := Fsm.edge_congr rfl rfl
    rw [e] at hx
    exact Fsm.init_edge q c p hx
  refine ⟨.makeFalse, fun q p => by rw [Still.makeFalse.2.output]; omega, fun q t hq => (by cases hq), fun _ => False, fun _ => 0, fun q => q = 0,
    ⟨h.out, h.inl, h.init, h.fin, h.silent, h.enter, h.stay, h.leave, h.alt, ?_, ?_, ?_, ?_⟩, fun _ _ => id, fun _ => rfl, fun _ => ⟨id, fun _ => rfl, .inl rfl⟩⟩
  · rintro q rfl; exact Nat.one_pos
  · intro q _; exact id
  · intro q _; simp [Fsm.makeFalse, Fsm.setFinal, Fsm.init]
  · intro q c p _ hx; exact absurd hx (he q c p)

theorem Marked.append (h : Marked z o must f) (hz : z = true → f.isAlt = false) (ha : Appended f g) (hg : g.Good) : Marked z o must g := by
  obtain ⟨h1, h2, h3, In, R, Pre, h4, h5, h6, h7⟩ := h
  refine ⟨hg, fun q p => by rw [output_congr ha.outputs]; exact h2 q p, h3.of_eq ha.tags, In, R, Pre,
    h4.append h1.wf ha.size ha.outputs ha.edge ha.init ha.fin ha.alt, h5, fun hm => by rw [ha.init]; exact h6 hm,
    fun h => ⟨(h7 h).1, (h7 h).2.1, .inl ?_⟩⟩
  rcases (h7 h).2.2 with h' | ⟨h', -⟩
  · rw [ha.init, h']
  · rw [hz h] at h'; cases h'

theorem Lab.relabel {L L' : Language Nat} {In : Nat → Prop} {R : Nat → Language Nat} {Pre : Nat → Prop} (h : Lab L f In R Pre) (hn : ∀ q, ¬ In q) : Lab L' f In R Pre :=
  ⟨h.out, h.inl, h.init, h.fin, h.silent, fun q c p _ _ hp => absurd hp (hn p), h.stay, h.leave, h.alt, h.prel, h.pre_out, h.pre_fin, h.pre_edge⟩

theorem lab_or {In In' : Nat → Prop} {R R' : Nat → Language Nat} {Pre Pre' : Nat → Prop} (h : Lab (o.getD 0) f In R Pre) (hn : o = none → ∀ q, ¬ In q)
    (h' : Lab (o'.getD 0) g In' R' Pre') (hn' : o' = none → ∀ q, ¬ In' q) (ho : o = none ∨ o' = none ∨ o = o') :
    Lab ((o <|> o').getD 0) f In R Pre ∧ Lab ((o <|> o').getD 0) g In' R' Pre' := by
  cases o with
  | none =>
    have e : (none <|> o' : Option (Language Nat)) = o' := by cases o' <;> rfl
    rw [e]; exact ⟨h.relabel (hn rfl), h'⟩
  | some L =>
    refine ⟨h, ?_⟩
    rcases ho with ho | ho | ho
    · cases ho
    · subst ho; exact h'.relabel (hn' rfl)
    · subst ho; exact h'

theorem Marked.concat (h : Marked z o must f) (hz : z = true → f.isAlt = false) (h' : Marked z' o' must' g) (ho : o = none ∨ o' = none ∨ o = o') :
    Marked z (o <|> o') (must || must') (f.concat g) := by
  obtain ⟨h1, h2, h3, In, R, Pre, h4, h5, h6, h7⟩ := h
  obtain ⟨k1, k2, k3, In', R', Pre', k4, k5, k6, k7⟩ := h'
  obtain ⟨l1, l2⟩ := lab_or h4 h5 k4 k5 ho
  have hl := l1.concat h1.wf h1.coh l2 k1.wf k1.coh
  have hil := h1.wf.init_lt
  obtain ⟨c1, c2, -⟩ := Fsm.concat_spec h1.wf h1.coh k1.wf k1.coh
  refine ⟨h1.concat k1, ?_, h3.concat k3, _, _, _, hl, ?_, ?_, ?_⟩
  · intro q p
    rw [concat_output h1.wf h4.out k4.out]
    split
    · split
      · exact h2 _ _
      · split
        · exact k2 _ _
        · omega
    · split
      · exact k2 _ _
      · omega
  · intro hn q
    have hn' : o = none ∧ o' = none := by cases o <;> cases o' <;> simp_all
    split
    · exact h5 hn'.1 q
    · exact k5 hn'.2 _
  · intro hm
    have ei : (f.concat g).initial = f.initial := c2
    rw [ei]
    rw [if_pos hil]
    rw [Bool.or_eq_true] at hm
    exact hm.imp h6 fun x => ⟨k6 x, h4.init⟩
  · intro hz'
    have h0 : 0 < f.size := by omega
    rw [if_pos h0, if_pos h0]
    refine ⟨(h7 hz').1, fun hm => ?_, .inl ?_⟩
    · rw [Bool.or_eq_true] at hm
      exact hm.imp (h7 hz').2.1 fun x => ⟨k6 x, (h7 hz').1⟩
    · rcases (h7 hz').2.2 with h' | ⟨h', -⟩
      · exact c2.trans h'
      · rw [hz hz'] at h'; cases h'

theorem Marked.union (h : Marked z o must f) (h' : Marked z' o' must' g) (ho : o = none ∨ o' = none ∨ o = o') :
    Marked z (o <|> o') false (f.union g) := by
  obtain ⟨h1, h2, h3, In, R, Pre, h4, h5, h6, h7⟩ := h
  obtain ⟨k1, k2, k3, In', R', Pre', k4, k5, k6, k7⟩ := h'
  obtain ⟨l1, l2⟩ := lab_or h4 h5 k4 k5 ho
  have hl := l1.union h1.wf h1.coh l2 k1.wf k1.coh
  have hil := h1.wf.init_lt
  refine ⟨h1.union k1, ?_, h3.union k3, _, _, _, hl, ?_, nofun, ?_⟩
  · intro q p
    rw [(union_edges h1.wf h1.coh k1.wf k1.coh).output h4.out k4.out]
    split
    · exact h2 _ _
    · split
      · exact k2 _ _
      · omega
  · intro hn q
    have hn' : o = none ∧ o' = none := by cases o <;> cases o' <;> simp_all
    split
    · exact h5 hn'.1 q
    · exact k5 hn'.2 _
  · intro hz
    have h0 : 0 < f.size := by omega
    rw [if_pos h0]
    have hu := union_edges h1.wf h1.coh k1.wf k1.coh
    refine ⟨(h7 hz).1, nofun, ?_⟩
    rcases hu.root with ⟨r1, r2, r3⟩ | ⟨r2, r1⟩
    · rcases (h7 hz).2.2 with h' | ⟨-, h'⟩
      · exact .inl (r1.trans h')
      · exact .inr ⟨hu.alt, by rw [r1]; exact r3 _ _ h'⟩
    · rcases (h7 hz).2.2 with h' | ⟨h', -⟩
      · rw [h'] at r1; exact .inr ⟨hu.alt, r1⟩
      · rw [r2] at h'; cases h'

theorem Marked.iterate (h : Marked z o must f) : Marked false o false f.iterate := by
  obtain ⟨h1, h2, h3, In, R, Pre, h4, h5, h6, h7⟩ := h
  have ho : f.iterate.outputs = f.outputs := by
    simp [Fsm.iterate, Fsm.setFinal, Fsm.clearFinal, Fsm.resize, Fsm.connectFinal, Fsm.clearHints]
  exact ⟨h1.iterate, fun q p => by rw [output_congr ho]; exact h2 q p, h3.of_eq (Fsm.iterate_tags f), _, _, _, h4.iterate h1.wf, h5, nofun, nofun⟩

theorem or_self' (o : Option (Language Nat)) : (o <|> o) = o := by cases o <;> rfl

theorem none_or' (o : Option (Language Nat)) : (none <|> o) = o := by cases o <;> rfl

theorem or_none' (o : Option (Language Nat)) : (o <|> none) = o := by cases o <;> rfl

theorem Marked.power (h : Marked z o must f) (n : Nat) : Marked false (if n = 0 then none else o) (decide (n ≠ 0) && must) (f.power n) := by
  induction n with
  | zero => exact .init
  | succ n ih =>
    have hc := ih.concat nofun h (by split <;> simp)
    have e1 : ((if n = 0 then none else o) <|> o) = if n + 1 = 0 then none else o := by
      rw [if_neg (by omega : ¬ n + 1 = 0)]
      split
      · exact none_or' o
      · exact or_self' o
    have e2 : (decide (n ≠ 0) && must || must) = (decide (n + 1 ≠ 0) && must) := by cases must <;> simp
    rw [e1, e2] at hc
    exact hc

theorem Marked.widen (h : Marked z none must f) : Marked z o must f := by
  obtain ⟨h1, h2, h3, In, R, Pre, h4, h5, h6, h7⟩ := h
  exact ⟨h1, h2, h3, In, R, Pre, h4.relabel (h5 rfl), fun _ => h5 rfl, h6, h7⟩

theorem Marked.power' (h : Marked z o must f) (n : Nat) : Marked false o (decide (n ≠ 0) && must) (f.power n) := by
  have := h.power n
  split at this
  · exact this.widen
  · exact this

theorem repeatAction_marked (h : Marked z o must f) {lo : Nat} {hi : Option Nat} (hle : ∀ h, hi = some h → lo ≤ h) :
    (Parse.repeatAction f lo hi).Sat False (Marked false o (decide (lo ≠ 0) && must)) := by
  have hu : Marked false o false (f.union Fsm.init) := by
    have := (h.union (z' := false) Marked.init (.inr (.inl rfl))).weaken
    rwa [or_none'] at this
  have hi' := h.iterate
  unfold Parse.repeatAction
  split
  · next hx => obtain ⟨rfl, rfl⟩ := hx; exact hu
  split
  · next hx => obtain ⟨rfl, rfl⟩ := hx; exact hi'
  split
  · next hx =>
    obtain ⟨rfl, rfl⟩ := hx
    have := h.weaken.concat nofun hi' (.inr (.inr rfl))
    rw [or_self', Bool.or_false] at this
    show Marked false o _ _
    simpa using this
  dsimp only
  have hp := h.power' lo
  cases hi with
  | none =>
    have := hp.concat nofun hi' (.inr (.inr rfl))
    rw [or_self', Bool.or_false] at this
    exact this
  | some hi =>
    have hle := hle hi rfl
    dsimp only
    split
    · exact hp
    · rw [if_neg (by omega)]
      have hq := (hu.power' (hi - lo)).optional
      have := hp.concat nofun hq (.inr (.inr rfl))
      rw [or_self', Bool.or_false] at this
      exact this

theorem setCaptureMark_isAlt (f : Fsm) : (setCaptureMark f).isAlt = false := by
  unfold setCaptureMark
  dsimp only
  obtain ⟨o, e, -⟩ := markFinals_spec (setOutput (((f.resize (f.size + 2)).connect f.size f.initial Epsilon).connectFinal (f.size + 1) Epsilon) f.size
    ((((f.resize (f.size + 2)).connect f.size f.initial Epsilon).connectFinal (f.size + 1) Epsilon)).initial 1) (f.size + 1) 2
  rw [e]
  show ((((f.resize (f.size + 2)).connect f.size f.initial Epsilon).connectFinal (f.size + 1) Epsilon)).isAlt = false
  rw [Fsm.connectFinal_isAlt]

theorem setCaptureMark_good (h : f.Good) : (setCaptureMark f).Good := by
  obtain ⟨hw, -, -, -, hl, -, hd, -⟩ := setCaptureMark_spec h.wf
  refine h.epsExt ?_ hw (setCaptureMark_isAlt f) hd
  refine (((Fsm.EpsExt.resize h.wf (n := f.size + 2) (by omega)).trans (Fsm.EpsExt.connect _ f.size f.initial)).trans (Fsm.EpsExt.connectFinal _ (f.size + 1))).congr ?_ (hl.trans (by rw [Fsm.connectFinal_letters]; rfl))
  unfold setCaptureMark
  dsimp only
  obtain ⟨o, e, -⟩ := markFinals_spec (setOutput (((f.resize (f.size + 2)).connect f.size f.initial Epsilon).connectFinal (f.size + 1) Epsilon) f.size
    ((((f.resize (f.size + 2)).connect f.size f.initial Epsilon).connectFinal (f.size + 1) Epsilon)).initial 1) (f.size + 1) 2
  rw [e]
  rfl

theorem setRepetitionMark_good (h : f.Good) (b : Bool) : (setRepetitionMark f b).Good := by
  obtain ⟨hw, -, -, -, hl, -⟩ := setRepetitionMark_spec h.wf b
  refine h.epsExt ?_ hw (setRepetitionMark_isAlt f b) rfl
  refine ((Fsm.EpsExt.resize h.wf (n := f.size + 1) (by omega)).trans (Fsm.EpsExt.connectFinal _ f.size)).congr ?_ (hl.trans (by rw [Fsm.connectFinal_letters]; rfl))
  unfold setRepetitionMark
  dsimp only
  obtain ⟨o, e, -⟩ := markFinals_spec ((f.resize (f.size + 1)).connectFinal f.size Epsilon) f.size (if b then 4 else 8)
  rw [e]
  rfl

theorem Marked.repetition (h : Marked z o must f) (b : Bool) : Marked false o must (setRepetitionMark f b) := by
  obtain ⟨h1, h2, h3, In, R, Pre, h4, h5, h6, h7⟩ := h
  obtain ⟨-, hs, hi, hf, -, he, ho⟩ := setRepetitionMark_spec h1.wf b
  refine ⟨setRepetitionMark_good h1 b, ?_, h3.of_eq (setRepetitionMark_tags f b), _, _, _, h4.repetition h1.wf b, h5, by rw [hi]; exact h6, nofun⟩
  intro q p
  rw [ho]
  split
  · split <;> omega
  · exact h2 q p

/-- The marks around a group. -/
theorem Marked.capture (h : Marked z none must f) : Marked false (some f.Lang) true (setCaptureMark f) := by
  obtain ⟨h1, h2, h3, In, R, Pre, h4, h5, -⟩ := h
  obtain ⟨-, hsz, hi, hf, -, ht, -, -, he, hout⟩ := setCaptureMark_spec h1.wf
  have hl := Lab.mark h1.wf h4.out fun q p => h4.silent q p (h5 rfl q) (h5 rfl p)
  refine ⟨setCaptureMark_good h1, ?_, h3.of_eq ht, _, _, _, hl, nofun, fun _ => hi, nofun⟩
  intro q p
  rw [hout]
  split
  · omega
  · split
    · omega
    · exact h2 q p

/-! ### The values of the parser -/

theorem Still.appended (h : Still f) (ha : Appended f g) : Still g := h.of_eq ha.outputs ha.size

theorem appendRange_appended (e : Encoding) {a : Fsm} (ha : Parse.Appendable a) {cs : Finset Nat} (h : ∀ c ∈ cs, c < 0x200000) :
    (Parse.appendRange e a cs).Sat False fun g => g = Fsm.makeFalse ∨ Appended a g := by
  unfold Parse.appendRange
  dsimp only
  split
  · exact .inl rfl
  · cases hg : a.appendStrings (((elems cs).map e.toLocal).filter (· ≠ [])) with
    | none =>
      have := Fsm.appendStrings_none.1 hg
      simp at this
    | some g =>
      refine .inr (appended_strings ha.good.wf ha.raw ha.isAlt ha.determined ?_ hg)
      intro t ht c hc
      simp only [List.mem_filter, List.mem_map, mem_elems] at ht
      obtain ⟨⟨d, hd, rfl⟩, -⟩ := ht
      rw [Parse.toLocal_eq e (h d hd)] at hc
      exact Parse.enc_bytes e (h d hd) c hc

theorem Sat.and {α : Type} {r : Res α} {m m' : Prop} {Q Q' : α → Prop} (h : r.Sat m Q) (h' : r.Sat m' Q') : r.Sat m fun a => Q a ∧ Q' a := by
  cases r with
  | ok a => exact ⟨h, h'⟩
  | throws => exact h
  | bad => exact h

/-- What a value on the stack says about the group. -/
def ValMarked (o : Option (Language Nat)) (must : Bool) : Parse.Val → Prop
  | .fsm f => Marked false o must f
  | _ => o = none ∧ must = false

theorem convertToFsm_marked (e : Encoding) {v : Parse.Val} {L : Language Nat} {emp : Bool} (h : Parse.ValSpec e L emp v) (hm : ValMarked o must v) :
    (Parse.convertToFsm e v).Sat (v.plain = false) (Marked false o must) := by
  cases v with
  | fsm f => exact hm
  | dot =>
    obtain ⟨rfl, rfl⟩ := hm
    exact Marked.init.append nofun (appended_dot e .init) (Parse.appendDot_spec e .init).1.good
  | bol =>
    obtain ⟨rfl, rfl⟩ := hm
    exact Marked.init.append nofun (appended_char Fsm.Good.init.wf _) (Parse.appendChar_spec .init ⟨by decide, by decide⟩).1
  | eol =>
    obtain ⟨rfl, rfl⟩ := hm
    exact Marked.init.append nofun (appended_char Fsm.Good.init.wf _) (Parse.appendChar_spec .init ⟨by decide, by decide⟩).1
  | range cs neg =>
    obtain ⟨rfl, rfl⟩ := hm
    obtain ⟨hb, -⟩ := h
    unfold Parse.convertToFsm
    have hr := Sat.and (Parse.appendRange_sat e .init hb) (appendRange_appended e .init hb)
    refine (hr.mono (fun h => h.elim) fun _ h => h).bind fun a ha => ?_
    obtain ⟨⟨ha, -, -⟩, hap⟩ := ha
    have hst : Still a := hap.elim (fun h => by rw [h]; exact .makeFalse) fun h => Still.init.appended h
    have htg : a.TagsIn (· = 0) := hap.elim (fun h => by rw [h]; exact fun q t hq => (by cases hq)) fun h => Fsm.TagsIn.init.of_eq h.tags
    cases neg with
    | false => exact Marked.still ha.good hst htg nofun
    | true =>
      rw [if_pos rfl]
      have hs := (Parse.appendDot_spec e .init).1
      have ho := appended_dot e Parse.Appendable.init
      dsimp only
      cases hx : (e.appendDot Fsm.init).complement with
      | none => exact rfl
      | some x =>
        obtain ⟨x1, -, -⟩ := Fsm.complement_spec hs.good hx
        have x2 : Still x := (Still.init.appended ho).complement hs.good.wf hs.determined hx
        have x3 : x.TagsIn (· = 0) := (Fsm.TagsIn.init.of_eq ho.tags).complement (fun a b ha hb => by rw [ha, hb]; rfl) hx
        change Res.Sat _ _ (Res.bind (Parse.lift (a.union x).complement) _)
        cases hy : (a.union x).complement with
        | none => exact rfl
        | some y =>
          obtain ⟨y1, -, -⟩ := Fsm.complement_spec (ha.good.union x1) hy
          have y2 : Still y := (hst.union ha.good.wf ha.good.coh x2 x1.wf x1.coh).complement (ha.good.union x1).wf (Fsm.union_determined _ _) hy
          have y3 : y.TagsIn (· = 0) := (htg.union x3).complement (fun a b ha hb => by rw [ha, hb]; rfl) hy
          exact Marked.still (Parse.good_removeDeadEnds y1 (Parse.complement_determined hy)) y2.removeDeadEnds (y3.of_eq (removeDeadEnds_keeps y).2) nofun

theorem appendIteration_marked (e : Encoding) {a : Fsm} (ha : Parse.Appendable a) {v : Parse.Val} {L : Language Nat} (h : Parse.ValSpec e L false v)
    (hz : a.initial = 0) (hm : Marked true o must a) (hv : ValMarked o' must' v) (ho : o = none ∨ o' = none) :
    (Parse.appendIteration e a v).Sat (v.plain = false) fun g => Marked true (o <|> o') (must || must') g ∧ g.initial = 0 := by
  have gen : Res.Sat (v.plain = false) (fun g => Marked true (o <|> o') (must || must') g ∧ g.initial = 0)
      (do let b ← Parse.convertToFsm e v; Res.ok (a.concat b)) := by
    refine (convertToFsm_marked e h hv).bind fun b hb => ?_
    refine ⟨hm.concat (fun _ => ha.isAlt) hb (ho.imp_right .inl), ?_⟩
    exact (Fsm.concat_spec ha.good.wf ha.good.coh hb.good.wf hb.good.coh).2.1.trans hz
  cases v with
  | fsm f => exact gen
  | bol => exact gen
  | eol => exact gen
  | dot =>
    obtain ⟨rfl, rfl⟩ := hv
    rw [or_none', Bool.or_false]
    have hd := appended_dot e ha
    exact ⟨hm.append (fun _ => ha.isAlt) hd (Parse.appendDot_spec e ha).1.good, hd.init.trans hz⟩
  | range cs neg =>
    cases neg with
    | true => exact gen
    | false =>
      obtain ⟨rfl, rfl⟩ := hv
      rw [or_none', Bool.or_false]
      obtain ⟨hb, -⟩ := h
      refine (Sat.and (Parse.appendRange_sat e ha hb) (appendRange_appended e ha hb)).mono (fun h => h.elim) fun g hg => ?_
      rcases hg.2 with rfl | hx
      · exact ⟨.makeFalse true o must, rfl⟩
      · exact ⟨hm.append (fun _ => ha.isAlt) hx hg.1.1.good, hx.init.trans hz⟩

end Capture
end Pire
