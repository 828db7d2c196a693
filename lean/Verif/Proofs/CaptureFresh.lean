import Verif.Proofs.CaptureOrder
import Verif.Proofs.CaptureEval

/-!
# Patterns in which no greedy repetition ends before a letter is read
-/

namespace Pire
namespace Capture
open Spec Pire.Lex Pire.Enc Pire.Parse

variable {f g : Fsm}

theorem not_endsGreedy_zero : ¬ EndsGreedy 0 := fun h => h.2 rfl

/-- Before a letter is read, no greedy repetition ends, and there is no begin mark. -/
structure Fresh (f : Fsm) : Prop where
  ini : ∀ q, ¬ EndsGreedy (f.output q f.initial)
  edge : ∀ q, Run f.Edge f.initial [] q → ∀ c p, f.Edge q c p → c ≠ 258 ∧ (c = 257 → ¬ EndsGreedy (f.output q p))

/-- It is enough to have a closed set of states. -/
theorem Fresh.of {P : Nat → Prop} (h0 : ∀ q, ¬ EndsGreedy (f.output q f.initial)) (hi : P f.initial)
    (hs : ∀ q, P q → ∀ c p, f.Edge q c p → c ≠ 258 ∧ (c = 257 → P p ∧ ¬ EndsGreedy (f.output q p))) : Fresh f := by
  have key : ∀ {q w p}, Run f.Edge q w p → w = [] → P q → P p := by
    intro q w p hr
    induction hr with
    | refl => exact fun _ h => h
    | eps he _ ih => exact fun hw hq => ih hw ((hs _ hq _ _ he).2 rfl).1
    | step _ _ _ _ => intro hw; cases hw
  exact ⟨h0, fun q hq c p he => ⟨(hs q (key hq rfl hi) c p he).1, fun hc => ((hs q (key hq rfl hi) c p he).2 hc).2⟩⟩

theorem Still.not_endsGreedy (h : Still f) (q p : Nat) : ¬ EndsGreedy (f.output q p) := by rw [h.2.output]; exact not_endsGreedy_zero

theorem Still.fresh (h : Still f) (he : ∀ q c p, f.Edge q c p → c ≠ 258) : Fresh f :=
  ⟨fun q => h.not_endsGreedy _ _, fun q _ c p hx => ⟨he q c p hx, fun _ => h.not_endsGreedy _ _⟩⟩

theorem Fresh.init : Fresh Fsm.init := Still.init.fresh fun q c p h => absurd h (Fsm.init_edge q c p)

theorem Fresh.makeFalse : Fresh Fsm.makeFalse := Still.makeFalse.fresh fun q c p h => by
  have e : Fsm.makeFalse.Edge = Fsm.init.Edge := Fsm.edge_congr rfl rfl
  rw [e] at h
  exact absurd h (Fsm.init_edge q c p)

/-- Only bytes are appended. -/
def Bytes (f g : Fsm) : Prop := ∀ q c p, g.Edge q c p → f.Edge q c p ∨ c < 256

theorem Fresh.append (h : Fresh f) (hw : f.WF) (ha : Appended f g) (hb : Bytes f g) : Fresh g := by
  refine Fresh.of (P := fun q => Run f.Edge f.initial [] q) (fun q => by rw [output_congr ha.outputs, ha.init]; exact h.ini q) (by rw [ha.init]; exact .refl _) ?_
  intro q hq c p he
  rcases hb q c p he with he | hc
  · obtain ⟨h1, h2⟩ := h.edge q hq c p he
    refine ⟨h1, fun hc => ⟨?_, by rw [output_congr ha.outputs]; exact h2 hc⟩⟩
    subst hc
    simpa using hq.snocEps he
  · exact ⟨by omega, fun h => by omega⟩

theorem bytes_connect {f : Fsm} (hr : f.Raw) (a b : Nat) {d : Nat} (hd : d < 256) : Bytes f (f.connect a b d) := by
  intro q c p he
  refine (Fsm.edge_connect.1 he).imp_right fun h => ?_
  rw [← Fsm.key_raw hr c, h.2.2]; exact hd

theorem bytes_connectFinal {f : Fsm} (hr : f.Raw) (a : Nat) {d : Nat} (hd : d < 256) : Bytes f (f.connectFinal a d) := by
  intro q c p he
  refine (Fsm.edge_connectFinal.1 he).imp_right fun h => ?_
  rw [← Fsm.key_raw hr c, h.2.2]; exact hd

theorem Bytes.trans {f g k : Fsm} (h : Bytes f g) (h' : Bytes g k) : Bytes f k := fun q c p he => (h' q c p he).elim (h q c p) .inr

theorem resize_bytes (g : Fsm) (n : Nat) : Bytes g (g.resize n) := by
  intro q c p he
  left
  rw [Fsm.edge_iff] at he ⊢
  have e : (g.resize n).key c = g.key c := rfl
  rw [e] at he
  by_cases hq : q < g.size ∧ q < n
  · simpa [Fsm.resize, Fsm.dst, hq] using he
  · simp [Fsm.resize, Fsm.dst, hq] at he

theorem Bytes.congr {k : Fsm} (h : Bytes f g) (ht : k.tr = g.tr) (hl : k.letters = g.letters) : Bytes f k := by
  have e : k.Edge = g.Edge := Fsm.edge_congr ht hl
  intro q c p he
  rw [e] at he
  exact h q c p he

theorem asMid_bytes (s : Fsm.ASt × Nat) (hr : s.1.fsm.Raw) {c : Nat} (hc : c < 256) : (Fsm.asMid s c).1.fsm.Raw ∧ Bytes s.1.fsm (Fsm.asMid s c).1.fsm := by
  unfold Fsm.asMid
  dsimp only
  split
  · exact ⟨hr, ((resize_bytes _ _).trans (bytes_connect (f := s.1.fsm.resize _) hr _ _ hc)).congr rfl rfl⟩
  · exact ⟨hr, fun q c p he => .inl he⟩

theorem asMid_fold_bytes (l : List Nat) (hl : ∀ c ∈ l, c < 256) : ∀ (s : Fsm.ASt × Nat), s.1.fsm.Raw → (l.foldl Fsm.asMid s).1.fsm.Raw ∧ Bytes s.1.fsm (l.foldl Fsm.asMid s).1.fsm := by
  induction l with
  | nil => exact fun s hr => ⟨hr, fun q c p he => .inl he⟩
  | cons c l ih =>
    intro s hr
    obtain ⟨h1, h2⟩ := asMid_bytes s hr (hl c (by simp))
    obtain ⟨h3, h4⟩ := ih (fun d hd => hl d (by simp [hd])) _ h1
    exact ⟨h3, h2.trans h4⟩

theorem asStep_bytes (fin : Nat) (st : Fsm.ASt) (hr : st.fsm.Raw) (s : List Nat) (hs : ∀ c ∈ s, c < 256) :
    (Fsm.asStep fin st s).fsm.Raw ∧ Bytes st.fsm (Fsm.asStep fin st s).fsm := by
  unfold Fsm.asStep
  split
  · exact ⟨hr, fun q c p he => .inl he⟩
  · next c =>
    refine ⟨?_, (bytes_connectFinal hr fin (hs c (by simp))).congr rfl rfl⟩
    show (st.fsm.connectFinal fin c).letters = _
    rw [Fsm.connectFinal_letters]; exact hr
  · next c cs hne =>
    dsimp only
    have hcs : ∀ d ∈ cs.dropLast, d < 256 := fun d hd => hs d (List.mem_cons_of_mem _ (List.mem_of_mem_dropLast hd))
    have hlast : cs.getLastD 0 < 256 := by
      cases cs with
      | nil => show (0:Nat) < 256; omega
      | cons d ds =>
        rw [List.getLastD_cons]
        have hg : ∀ (d : Nat) (ds : List Nat), ds.getLastD d ∈ d :: ds := by
          intro d ds
          induction ds generalizing d with
          | nil => simp
          | cons x xs ih => rw [List.getLastD_cons]; exact List.mem_cons_of_mem _ (ih x)
        exact hs _ (List.mem_cons_of_mem _ (hg d ds))
    obtain ⟨st1, hst1⟩ : ∃ st1 : Fsm.ASt, st1 = if st.start c = 0 then
        { st with fsm := { (st.fsm.resize (st.fsm.size + 1)).connectFinal st.fsm.size c with determined := false },
                  start := fun d => if d = c then st.fsm.size else st.start d }
      else st := ⟨_, rfl⟩
    rw [← hst1]
    have h1 : st1.fsm.Raw ∧ Bytes st.fsm st1.fsm := by
      rw [hst1]
      split
      · refine ⟨?_, ((resize_bytes _ _).trans (bytes_connectFinal (f := st.fsm.resize _) hr _ (hs c (by simp)))).congr rfl rfl⟩
        show ((st.fsm.resize (st.fsm.size + 1)).connectFinal st.fsm.size c).letters = _
        rw [Fsm.connectFinal_letters]; exact hr
      · exact ⟨hr, fun q c p he => .inl he⟩
    obtain ⟨h3, h4⟩ := asMid_fold_bytes cs.dropLast hcs (st1, st1.start c) h1.1
    exact ⟨h3, (h1.2.trans (h4.trans (bytes_connect h3 _ _ hlast))).congr rfl rfl⟩

theorem asFold_bytes (fin : Nat) (l : List (List Nat)) (hl : ∀ s ∈ l, ∀ c ∈ s, c < 256) : ∀ (st : Fsm.ASt), st.fsm.Raw →
    Bytes st.fsm (l.foldl (Fsm.asStep fin) st).fsm := by
  induction l with
  | nil => exact fun st hr q c p he => .inl he
  | cons s l ih =>
    intro st hr
    obtain ⟨h1, h2⟩ := asStep_bytes fin st hr s (hl s (by simp))
    exact h2.trans (ih (fun d hd => hl d (by simp [hd])) _ h1)

theorem strings_bytes (hraw : f.Raw) {T : List (List Nat)} (hb : ∀ t ∈ T, ∀ c ∈ t, c < 256) (hg : f.appendStrings T = some g) : Bytes f g := by
  unfold Fsm.appendStrings at hg
  split at hg
  · cases hg
  · simp only [Fsm.resize_size, Nat.add_sub_cancel, Option.some.injEq] at hg
    have h1 := asFold_bytes f.size T hb { fsm := f.resize (f.size + 1), start := fun _ => 0, ltr := fun _ _ => 0 } hraw
    rw [← hg]
    exact ((resize_bytes f _).trans h1).congr rfl rfl

theorem dot_bytes (e : Encoding) (ha : Appendable f) : Bytes f (e.appendDot f) := by
  have hw := ha.good.wf
  intro q c p he
  cases e with
  | latin1 =>
    have he : (f.appendLetters (List.range 256)).Edge q c p := he
    rcases (Fsm.appendLetters_edge hw _ _ _ _).1 he with he | ⟨-, -, hc⟩
    · exact .inl he
    · rw [Fsm.key_raw ha.raw, List.mem_range] at hc; exact .inr hc
  | utf8 =>
    have he : (utf8AppendDot f).Edge q c p := he
    obtain ⟨-, -, -, -, -, -, -, h8⟩ := utf8AppendDot_spec hw ha.raw ha.isAlt
    rcases (h8 _ _ _).1 he with he | ⟨-, i, hi, -, hc⟩ | ⟨i, hi, -, -, hc⟩
    · exact .inl he
    · right
      unfold lead at hc
      interval_cases i <;> exact lt_of_lt_of_le hc.2 (by decide)
    · exact .inr (lt_trans hc.2 (by decide))

/-! ### The operations -/

theorem Fresh.concat (h : Fresh f) (ho : OutIn f) (hw : f.WF) (hc : f.Coh) (h' : [] ∈ f.Lang → Fresh g) (ho' : OutIn g) (hw' : g.WF) (hc' : g.Coh) : Fresh (f.concat g) := by
  obtain ⟨c1, c2, -, c3, c4, -⟩ := Fsm.concat_spec hw hc hw' hc'
  have out := concat_output hw ho ho'
  have hil := hw.init_lt
  refine Fresh.of (P := fun q => (q < f.size ∧ Run f.Edge f.initial [] q) ∨ (f.size ≤ q ∧ [] ∈ f.Lang ∧ Run g.Edge g.initial [] (q - f.size))) ?_ ?_ ?_
  · intro q
    rw [c2, out]
    split
    · exact h.ini q
    · rw [if_neg (by omega)]; exact not_endsGreedy_zero
  · rw [c2]; exact .inl ⟨hil, .refl _⟩
  · intro q hq c p he
    rw [out]
    rcases (c4 q c p).1 he with he | ⟨h1, h2, he⟩ | ⟨h1, h2, he⟩
    · obtain ⟨l1, -, l2⟩ := hw.edge_lt he
      rcases hq with ⟨-, hq⟩ | ⟨hq, -⟩
      · obtain ⟨e1, e2⟩ := h.edge q hq c p he
        refine ⟨e1, fun hc => ⟨.inl ⟨l2, ?_⟩, by rw [if_pos l1, if_pos l2]; exact e2 hc⟩⟩
        subst hc
        simpa using hq.snocEps he
      · omega
    · rcases hq with ⟨hq, -⟩ | ⟨-, hn, hq⟩
      · omega
      · obtain ⟨e1, e2⟩ := (h' hn).edge _ hq c _ he
        refine ⟨e1, fun hc => ⟨.inr ⟨h2, hn, ?_⟩, by rw [if_neg (by omega), if_pos h2]; exact e2 hc⟩⟩
        subst hc
        simpa using hq.snocEps he
    · have l1 := hw.fin_lt q h1
      rcases hq with ⟨-, hq⟩ | ⟨hq, -⟩
      · have hn : [] ∈ f.Lang := ⟨q, h1, hq⟩
        obtain ⟨e1, e2⟩ := (h' hn).edge _ (.refl _) c _ he
        refine ⟨e1, fun hc => ⟨.inr ⟨h2, hn, ?_⟩, by rw [if_pos l1, if_neg (by omega), if_pos h1]; exact e2 hc⟩⟩
        subst hc
        exact .eps he (.refl _)
      · omega

theorem Fresh.union (h : Fresh f) (ho : OutIn f) (hw : f.WF) (hc : f.Coh) (h' : Fresh g) (ho' : OutIn g) (hw' : g.WF) (hc' : g.Coh) : Fresh (f.union g) := by
  have hu := union_edges hw hc hw' hc'
  have out := hu.output ho ho'
  have hil := hw.init_lt
  have hil' := hw'.init_lt
  refine Fresh.of (P := fun q => (q < f.size ∧ Run f.Edge f.initial [] q) ∨ (f.size ≤ q ∧ Run g.Edge g.initial [] (q - f.size)) ∨ q = f.size + g.size) ?_ ?_ ?_
  · intro q
    rw [out]
    rcases hu.init with ⟨e, -⟩ | ⟨e, -⟩ | e
    · rw [e]
      split
      · exact h.ini q
      · rw [if_neg (by omega)]; exact not_endsGreedy_zero
    · rw [e]
      split
      · rw [ho.zero (by omega)]; exact not_endsGreedy_zero
      · rw [if_pos (by omega), Nat.add_sub_cancel_left]; exact h'.ini _
    · rw [e]
      split
      · rw [ho.zero (by omega)]; exact not_endsGreedy_zero
      · rw [if_pos (by omega), ho'.zero (by omega)]; exact not_endsGreedy_zero
  · rcases hu.init with ⟨e, -⟩ | ⟨e, -⟩ | e
    · rw [e]; exact .inl ⟨hil, .refl _⟩
    · rw [e]; exact .inr (.inl ⟨by omega, by rw [Nat.add_sub_cancel_left]; exact .refl _⟩)
    · rw [e]; exact .inr (.inr rfl)
  · intro q hq c p he
    have old : f.Edge q c p → c ≠ 258 ∧ (c = 257 → ((p < f.size ∧ Run f.Edge f.initial [] p) ∨ (f.size ≤ p ∧ Run g.Edge g.initial [] (p - f.size)) ∨ p = f.size + g.size) ∧
        ¬ EndsGreedy ((f.union g).output q p)) := by
      intro he
      obtain ⟨l1, -, l2⟩ := hw.edge_lt he
      rcases hq with ⟨-, hq⟩ | ⟨hq, -⟩ | hq
      · obtain ⟨e1, e2⟩ := h.edge q hq c p he
        refine ⟨e1, fun hc => ⟨.inl ⟨l2, ?_⟩, by rw [out, if_pos l1]; exact e2 hc⟩⟩
        subst hc
        simpa using hq.snocEps he
      · omega
      · omega
    have new : (∃ q' p', q = f.size + q' ∧ p = f.size + p' ∧ g.Edge q' c p') → c ≠ 258 ∧ (c = 257 → ((p < f.size ∧ Run f.Edge f.initial [] p) ∨
        (f.size ≤ p ∧ Run g.Edge g.initial [] (p - f.size)) ∨ p = f.size + g.size) ∧ ¬ EndsGreedy ((f.union g).output q p)) := by
      rintro ⟨q', p', rfl, rfl, he1⟩
      obtain ⟨l1, -, l2⟩ := hw'.edge_lt he1
      rcases hq with ⟨hq, -⟩ | ⟨-, hq⟩ | hq
      · omega
      · rw [Nat.add_sub_cancel_left] at hq
        obtain ⟨e1, e2⟩ := h'.edge q' hq c p' he1
        refine ⟨e1, fun hc => ⟨.inr (.inl ⟨by omega, ?_⟩), ?_⟩⟩
        · subst hc
          rw [Nat.add_sub_cancel_left]
          simpa using hq.snocEps he1
        · rw [out, if_neg (by omega), if_pos (by omega), Nat.add_sub_cancel_left, Nat.add_sub_cancel_left]; exact e2 hc
      · omega
    rcases hu.label q c p he with he' | he' | rfl
    · exact old he'
    · exact new he'
    · refine ⟨by omega, fun _ => ?_⟩
      rcases hu.edge q 257 p he with he' | he' | ⟨hqq, hpp⟩
      · exact (old he').2 rfl
      · exact (new he').2 rfl
      · refine ⟨?_, ?_⟩
        · rcases hpp with rfl | rfl | ⟨p', rfl, -, hp'⟩
          · exact .inl ⟨hil, .refl _⟩
          · exact .inr (.inl ⟨by omega, by rw [Nat.add_sub_cancel_left]; exact .refl _⟩)
          · exact .inr (.inl ⟨by omega, by rw [Nat.add_sub_cancel_left]; exact .eps hp' (.refl _)⟩)
        · rw [out]
          rcases hqq with ⟨rfl, p', rfl⟩ | ⟨rfl, rfl⟩ | rfl
          · rw [if_pos hil, ho.zero (by omega)]; exact not_endsGreedy_zero
          · rw [if_neg (by omega), if_neg (by omega)]; exact not_endsGreedy_zero
          · rw [if_neg (by omega)]
            split
            · rw [ho'.zero (by omega)]; exact not_endsGreedy_zero
            · exact not_endsGreedy_zero

theorem iterate_outputs (f : Fsm) : f.iterate.outputs = f.outputs := by
  simp [Fsm.iterate, Fsm.setFinal, Fsm.clearFinal, Fsm.resize, Fsm.connectFinal, Fsm.clearHints]

theorem Fresh.iterate (h : Fresh f) (ho : OutIn f) (hw : f.WF) : Fresh f.iterate := by
  have out := output_congr (iterate_outputs f)
  refine Fresh.of (P := fun q => Run f.Edge f.initial [] q ∨ f.size ≤ q) ?_ ?_ ?_
  · intro q
    rw [Fsm.iterate_initial, out, ho.zero (by omega)]; exact not_endsGreedy_zero
  · rw [Fsm.iterate_initial]; exact .inr (le_refl _)
  · intro q hq c p he
    rw [out]
    rcases (Fsm.iterate_edge hw q c p).1 he with he | ⟨rfl, hx⟩
    · obtain ⟨l1, -, l2⟩ := hw.edge_lt he
      rcases hq with hq | hq
      · obtain ⟨e1, e2⟩ := h.edge q hq c p he
        refine ⟨e1, fun hc => ⟨.inl ?_, e2 hc⟩⟩
        subst hc
        simpa using hq.snocEps he
      · omega
    · refine ⟨by omega, fun _ => ?_⟩
      rcases hx with ⟨rfl, rfl⟩ | ⟨rfl, rfl⟩ | ⟨-, rfl⟩ | ⟨-, rfl⟩
      · exact ⟨.inr (by omega), by rw [ho.zero (by omega)]; exact not_endsGreedy_zero⟩
      · exact ⟨.inl (.refl _), h.ini _⟩
      · exact ⟨.inl (.refl _), h.ini _⟩
      · exact ⟨.inr (by omega), by rw [ho.zero (by omega)]; exact not_endsGreedy_zero⟩

/-- What is needed of the operands. -/
structure Op (f : Fsm) : Prop where
  good : f.Good
  out : OutIn f
  fresh : Fresh f

theorem Marked.out {z must : Bool} {o : Option (Language Nat)} (h : Marked z o must f) : OutIn f := by
  obtain ⟨_, _, _, h, -⟩ := h.lab
  exact h.out

theorem Op.concat (h : Op f) (h' : Op g) : Op (f.concat g) := by
  refine ⟨h.good.concat h'.good, ?_, h.fresh.concat h.out h.good.wf h.good.coh (fun _ => h'.fresh) h'.out h'.good.wf h'.good.coh⟩
  exact (concat_out h.good.wf h'.good.wf h.out h'.out (Fsm.concat_spec h.good.wf h.good.coh h'.good.wf h'.good.coh).1).1

theorem Op.union (h : Op f) (h' : Op g) : Op (f.union g) := by
  refine ⟨h.good.union h'.good, ?_, h.fresh.union h.out h.good.wf h.good.coh h'.fresh h'.out h'.good.wf h'.good.coh⟩
  have e := union_edges h.good.wf h.good.coh h'.good.wf h'.good.coh
  intro q p v hv
  rw [e.outputs, import_stored h.out h'.out] at hv
  have := e.lo
  split at hv
  · have := h.out _ _ _ hv; omega
  · split at hv
    · have := h'.out _ _ _ hv; omega
    · cases hv

theorem Op.init : Op Fsm.init := ⟨.init, Still.init.1, .init⟩

theorem Op.iterate (h : Op f) : Op f.iterate :=
  ⟨h.good.iterate, h.out.mono (iterate_outputs f) (by rw [Fsm.iterate_size]; omega), h.fresh.iterate h.out h.good.wf⟩

theorem Op.power (h : Op f) (n : Nat) : Op (f.power n) := by
  induction n with
  | zero => exact .init
  | succ n ih => exact ih.concat h

theorem repeatAction_op (h : Op f) {lo : Nat} {hi : Option Nat} (hle : ∀ h, hi = some h → lo ≤ h) :
    (Parse.repeatAction f lo hi).Sat False Op := by
  have hu : Op (f.union Fsm.init) := h.union .init
  have hi' := h.iterate
  unfold Parse.repeatAction
  split
  · exact hu
  split
  · exact hi'
  split
  · exact h.concat hi'
  dsimp only
  have hp := h.power lo
  cases hi with
  | none => exact hp.concat hi'
  | some hi =>
    have hle := hle hi rfl
    dsimp only
    split
    · exact hp
    · rw [if_neg (by omega)]
      exact hp.concat (hu.power (hi - lo))

theorem Fresh.repetition (h : Fresh f) (hw : f.WF) (b : Bool) (hb : b = true → [] ∉ f.Lang) : Fresh (setRepetitionMark f b) := by
  obtain ⟨-, hs, hi, hf, -, he, ho⟩ := setRepetitionMark_spec hw b
  have hil := hw.init_lt
  refine Fresh.of (P := fun q => Run f.Edge f.initial [] q ∨ f.size ≤ q) ?_ ?_ ?_
  · intro q
    rw [hi, ho, if_neg (by omega)]; exact h.ini q
  · rw [hi]; exact .inl (.refl _)
  · intro q hq c p hx
    rw [ho]
    rcases (he q c p).1 hx with hx | ⟨hq', rfl, rfl⟩
    · obtain ⟨l1, -, l2⟩ := hw.edge_lt hx
      rcases hq with hq | hq
      · obtain ⟨e1, e2⟩ := h.edge q hq c p hx
        refine ⟨e1, fun hc => ⟨.inl ?_, by rw [if_neg (by omega)]; exact e2 hc⟩⟩
        subst hc
        simpa using hq.snocEps hx
      · omega
    · refine ⟨by omega, fun _ => ⟨.inr (le_refl _), ?_⟩⟩
      rw [if_pos ⟨hq', rfl⟩]
      have := hw.fin_lt q hq'
      rcases hq with hq | hq
      · cases b with
        | true => exact absurd ⟨q, hq', hq⟩ (hb rfl)
        | false => exact fun h => by simp [EndsGreedy] at h
      · omega

theorem Fresh.capture (h : Fresh f) (ho : OutIn f) (hw : f.WF) : Fresh (setCaptureMark f) := by
  obtain ⟨-, hs, hi, hf, -, -, -, -, he, hout⟩ := setCaptureMark_spec hw
  have hil := hw.init_lt
  have h1 : ¬ EndsGreedy 1 := fun h => by simp [EndsGreedy] at h
  have h2 : ¬ EndsGreedy 2 := fun h => by simp [EndsGreedy] at h
  refine Fresh.of (P := fun q => Run f.Edge f.initial [] q ∨ f.size ≤ q) ?_ ?_ ?_
  · intro q
    rw [hi, hout, if_neg (by omega), if_neg (by omega), ho.zero (by omega)]; exact not_endsGreedy_zero
  · rw [hi]; exact .inr (le_refl _)
  · intro q hq c p hx
    rw [hout]
    rcases (he q c p).1 hx with hx | ⟨rfl, rfl, rfl⟩ | ⟨hq', rfl, rfl⟩
    · obtain ⟨l1, -, l2⟩ := hw.edge_lt hx
      rcases hq with hq | hq
      · obtain ⟨e1, e2⟩ := h.edge q hq c p hx
        refine ⟨e1, fun hc => ⟨.inl ?_, by rw [if_neg (by omega), if_neg (by omega)]; exact e2 hc⟩⟩
        subst hc
        simpa using hq.snocEps hx
      · omega
    · refine ⟨by omega, fun _ => ⟨.inl (.refl _), ?_⟩⟩
      rw [if_neg (by omega), if_pos ⟨rfl, rfl⟩]; exact h1
    · refine ⟨by omega, fun _ => ⟨.inr (by omega), ?_⟩⟩
      rw [if_pos ⟨hq', rfl⟩]; exact h2

/-- Without dead ends all the edges are used. -/
theorem removeDeadEnds_used (hw : f.WF) (hc : f.Coh) {q c p : Nat} (he : f.removeDeadEnds.Edge q c p) (hc' : c ≠ 257) :
    ∃ w ∈ f.Lang, c ∈ w := by
  obtain ⟨he, h1, h2⟩ := (Fsm.removeDeadEnds_edge f q c p).1 he
  obtain ⟨l1, -, l2⟩ := hw.edge_lt he
  rw [Fsm.mem_deadStates hw hc] at h1 h2
  push Not at h1 h2
  obtain ⟨w, hr⟩ := (h1 l1).1
  obtain ⟨v, hv⟩ := (h2 l2).2
  obtain ⟨x, hx, hrx⟩ := hv
  exact ⟨w ++ c :: v, ⟨x, hx, hr.trans (.step hc' he hrx)⟩, by simp⟩

theorem one_bytes (e : Encoding) : ∀ w ∈ (codec e).one, (∀ c ∈ w, c < 256) ∧ w ≠ [] := by
  intro w hw
  cases e with
  | latin1 =>
    obtain ⟨b, hb, rfl⟩ := hw
    exact ⟨fun c hc => by simp only [List.mem_singleton] at hc; omega, by simp⟩
  | utf8 =>
    obtain ⟨c, hc⟩ := hw
    refine ⟨fun b hb => ?_, ?_⟩
    · have := Utf8Char.bytes hc b hb; omega
    · rintro rfl
      cases hc

theorem charsOf_bytes (e : Encoding) {cs : Finset Nat} (hb : ∀ c ∈ cs, c < 0x200000) : ∀ w ∈ (codec e).charsOf cs, (∀ c ∈ w, c < 256) ∧ w ≠ [] := by
  rintro w ⟨d, hd, rfl, hne⟩
  refine ⟨fun c hc => ?_, hne⟩
  exact Parse.enc_bytes e (hb d hd) c hc

/-- What a value on the stack says before a letter. -/
def ValFresh : Parse.Val → Prop
  | .fsm f => OutIn f ∧ Fresh f
  | .bol => False
  | .eol => False
  | _ => True

theorem appendRange_bytes (e : Encoding) {a : Fsm} (ha : Parse.Appendable a) {cs : Finset Nat} (h : ∀ c ∈ cs, c < 0x200000) :
    (Parse.appendRange e a cs).Sat False fun g => g = Fsm.makeFalse ∨ Bytes a g := by
  unfold Parse.appendRange
  dsimp only
  split
  · exact .inl rfl
  · cases hg : a.appendStrings (((elems cs).map e.toLocal).filter (· ≠ [])) with
    | none =>
      have := Fsm.appendStrings_none.1 hg
      simp at this
    | some g =>
      refine .inr (strings_bytes ha.raw ?_ hg)
      intro t ht c hc
      simp only [List.mem_filter, List.mem_map, mem_elems] at ht
      obtain ⟨⟨d, hd, rfl⟩, -⟩ := ht
      rw [Parse.toLocal_eq e (h d hd)] at hc
      exact Parse.enc_bytes e (h d hd) c hc

theorem init_fresh_append (ha : Appended Fsm.init g) (hb : Bytes Fsm.init g) : Fresh g := Fresh.init.append Fsm.Good.init.wf ha hb

theorem convertToFsm_fresh (e : Encoding) {v : Parse.Val} {L : Language Nat} {emp : Bool} (h : Parse.ValSpec e L emp v) (hv : ValFresh v) :
    (Parse.convertToFsm e v).Sat (v.plain = false) fun f => OutIn f ∧ Fresh f := by
  cases v with
  | fsm f => exact hv
  | bol => exact hv.elim
  | eol => exact hv.elim
  | dot =>
    have ha := appended_dot e .init
    exact ⟨(Still.init.appended ha).1, init_fresh_append ha (dot_bytes e .init)⟩
  | range cs neg =>
    have hb := h.1
    cases neg with
    | false =>
      unfold Parse.convertToFsm
      refine ((Sat.and (appendRange_appended e .init hb) (appendRange_bytes e .init hb)).mono (fun h => h.elim) fun _ h => h).bind fun a ha => ?_
      show OutIn a ∧ Fresh a
      rcases ha with ⟨rfl | h1, h2⟩
      · exact ⟨Still.makeFalse.1, .makeFalse⟩
      · refine ⟨(Still.init.appended h1).1, ?_⟩
        rcases h2 with rfl | h2
        · exact .makeFalse
        · exact init_fresh_append h1 h2
    | true =>
      unfold Parse.convertToFsm
      have hr := Sat.and (Parse.appendRange_sat e .init hb) (appendRange_appended e .init hb)
      refine (hr.mono (fun h => h.elim) fun _ h => h).bind fun a ha => ?_
      obtain ⟨⟨ha, hal, -⟩, hap⟩ := ha
      have hst : Still a := hap.elim (fun h => by rw [h]; exact .makeFalse) fun h => Still.init.appended h
      rw [if_pos rfl]
      have hs := (Parse.appendDot_spec e .init)
      have ho := appended_dot e Parse.Appendable.init
      dsimp only
      cases hx : (e.appendDot Fsm.init).complement with
      | none => exact rfl
      | some x =>
        obtain ⟨x1, xl, -⟩ := Fsm.complement_spec hs.1.good hx
        have x2 : Still x := (Still.init.appended ho).complement hs.1.good.wf hs.1.determined hx
        change Res.Sat _ _ (Res.bind (Parse.lift (a.union x).complement) _)
        cases hy : (a.union x).complement with
        | none => exact rfl
        | some y =>
          obtain ⟨y1, yl, -⟩ := Fsm.complement_spec (ha.good.union x1) hy
          have y2 : Still y := (hst.union ha.good.wf ha.good.coh x2 x1.wf x1.coh).complement (ha.good.union x1).wf (Fsm.union_determined _ _) hy
          refine ⟨y2.removeDeadEnds.1, y2.removeDeadEnds.fresh ?_⟩
          rintro q c p he rfl
          obtain ⟨w, hw, hm⟩ := removeDeadEnds_used y1.wf y1.coh he (by omega)
          have us := Fsm.union_shape ha.good.wf ha.good.coh ha.good.alt x1.wf x1.coh x1.alt
          have one : Fsm.init.Lang = (1 : Language Nat) := Fsm.lang_init
          rw [yl, us.lang, xl, hs.2.1, one, one_mul] at hw
          have h1 : w ∈ (codec e).one := by_contra fun hn => hw.2 (.inr ⟨hw.1, hn⟩)
          exact absurd ((one_bytes e w h1).1 _ hm) (by omega)

theorem appendIteration_fresh (e : Encoding) {a : Fsm} {o' : Option (Language Nat)} {must' : Bool} (ha : Parse.Appendable a) {v : Parse.Val} {L : Language Nat}
    (h : Parse.ValSpec e L false v) (hm : ValMarked o' must' v) (ho : OutIn a) (hf : Fresh a) (hv : [] ∈ a.Lang → ValFresh v) :
    (Parse.appendIteration e a v).Sat (v.plain = false) Fresh := by
  have gen : Res.Sat (v.plain = false) Fresh (do let b ← Parse.convertToFsm e v; Res.ok (a.concat b)) := by
    have key : (Parse.convertToFsm e v).Sat (v.plain = false) fun b => b.Good ∧ OutIn b ∧ ([] ∈ a.Lang → Fresh b) := by
      by_cases hn : [] ∈ a.Lang
      · refine (Sat.and (convertToFsm_sat e h) (convertToFsm_fresh e h (hv hn))).mono id fun b hb => ?_
        exact ⟨hb.1.1, hb.2.1, fun _ => hb.2.2⟩
      · refine (Sat.and (convertToFsm_sat e h) (convertToFsm_marked e h hm)).mono id fun b hb => ?_
        exact ⟨hb.1.1, hb.2.out, fun h => absurd h hn⟩
    refine key.bind fun b hb => ?_
    exact hf.concat ho ha.good.wf ha.good.coh hb.2.2 hb.2.1 hb.1.wf hb.1.coh
  cases v with
  | fsm f => exact gen
  | bol => exact gen
  | eol => exact gen
  | dot =>
    show Fresh _
    exact hf.append ha.good.wf (appended_dot e ha) (dot_bytes e ha)
  | range cs neg =>
    cases neg with
    | true => exact gen
    | false =>
      obtain ⟨hb, -⟩ := h
      refine (Sat.and (appendRange_appended e ha hb) (appendRange_bytes e ha hb)).mono (fun h => h.elim) fun g hg => ?_
      rcases hg with ⟨rfl | h1, h2⟩
      · exact .makeFalse
      · rcases h2 with rfl | h2
        · exact .makeFalse
        · exact hf.append ha.good.wf h1 h2

/-! ### Trees -/

theorem nil_mem_pow {L : Language Nat} (h : [] ∉ L) (n : Nat) (hn : [] ∈ L ^ n) : n = 0 := by
  cases n with
  | zero => rfl
  | succ n =>
    rw [pow_succ, Language.mem_mul] at hn
    obtain ⟨a, -, b, hb, he⟩ := hn
    obtain ⟨-, rfl⟩ := List.append_eq_nil_iff.1 he
    exact absurd hb h

mutual
theorem Alt.nullable_of (e : Encoding) (a : Alt) (hs : a.simple = true) (h : [] ∈ a.den (codec e)) : a.nullable = true := by
  match a with
  | .one c => rw [Alt.nullable]; rw [Alt.den] at h; rw [Alt.simple] at hs; exact Conj.nullable_of e c hs h
  | .or a c =>
    rw [Alt.nullable, Bool.or_eq_true]
    rw [Alt.den] at h
    rw [Alt.simple, Bool.and_eq_true] at hs
    exact h.imp (Alt.nullable_of e a hs.1) (Conj.nullable_of e c hs.2)
theorem Conj.nullable_of (e : Encoding) (c : Conj) (hs : c.simple = true) (h : [] ∈ c.den (codec e)) : c.nullable = true := by
  match c with
  | .one c => rw [Conj.nullable]; rw [Conj.den] at h; rw [Conj.simple] at hs; exact Neg.nullable_of e c hs h
  | .and _ _ => rw [Conj.nullable]
theorem Neg.nullable_of (e : Encoding) (c : Neg) (hs : c.simple = true) (h : [] ∈ c.den (codec e)) : c.nullable = true := by
  match c with
  | .one c => rw [Neg.nullable]; rw [Neg.den] at h; rw [Neg.simple] at hs; exact Cat.nullable_of e c hs h
  | .not _ => rw [Neg.nullable]
theorem Cat.nullable_of (e : Encoding) (c : Cat) (hs : c.simple = true) (h : [] ∈ c.den (codec e)) : c.nullable = true := by
  match c with
  | .nil => rw [Cat.nullable]
  | .snoc c i =>
    rw [Cat.nullable, Bool.and_eq_true]
    rw [Cat.den, Language.mem_mul] at h
    rw [Cat.simple, Bool.and_eq_true] at hs
    obtain ⟨a, ha, b, hb, he⟩ := h
    obtain ⟨rfl, rfl⟩ := List.append_eq_nil_iff.1 he
    exact ⟨Cat.nullable_of e c hs.1 ha, Iter.nullable_of e i hs.2 hb⟩
theorem Iter.nullable_of (e : Encoding) (i : Iter) (hs : i.simple = true) (h : [] ∈ i.den (codec e)) : i.nullable = true := by
  match i with
  | .one t => rw [Iter.nullable]; rw [Iter.den] at h; rw [Iter.simple] at hs; exact Term.nullable_of e t hs h
  | .rep t lo hi =>
    rw [Iter.nullable, Bool.or_eq_true]
    rw [Iter.den] at h
    rw [Iter.simple] at hs
    obtain ⟨n, hn, -, hp⟩ := h
    by_cases hx : [] ∈ t.den (codec e)
    · exact .inr (Term.nullable_of e t hs hx)
    · have := nil_mem_pow hx n hp
      exact .inl (by rw [decide_eq_true_eq]; omega)
theorem Term.nullable_of (e : Encoding) (t : Term) (hs : t.simple = true) (h : [] ∈ t.den (codec e)) : t.nullable = true := by
  match t with
  | .letters cs neg =>
    cases neg with
    | false => rw [Term.den] at h; obtain ⟨d, -, -, hne⟩ := h; exact absurd rfl hne
    | true => rw [Term.den] at h; exact absurd rfl (one_bytes e _ h.1).2
  | .dot => rw [Term.den] at h; exact absurd rfl (one_bytes e _ h).2
  | .bol => rw [Term.den] at h; cases h
  | .eol => rw [Term.den] at h; cases h
  | .group a => rw [Term.nullable]; rw [Term.den] at h; rw [Term.simple] at hs; exact Alt.nullable_of e a hs h
end

/-- Only bytes. -/
def BytesOnly (L : Language Nat) : Prop := ∀ w ∈ L, ∀ c ∈ w, c < 256

theorem BytesOnly.pow {L : Language Nat} (h : BytesOnly L) (n : Nat) : BytesOnly (L ^ n) := by
  induction n with
  | zero =>
    intro w hw
    rw [pow_zero, Language.mem_one] at hw
    subst hw; simp
  | succ n ih =>
    intro w hw
    rw [pow_succ, Language.mem_mul] at hw
    obtain ⟨a, ha, b, hb, rfl⟩ := hw
    intro c hc
    rcases List.mem_append.1 hc with hc | hc
    · exact ih a ha c hc
    · exact h b hb c hc

mutual
theorem Alt.bytes (e : Encoding) (a : Alt) (ok : a.Ok) (hs : a.simple = true) (hm : a.markless = true) : BytesOnly (a.den (codec e)) := by
  match a with
  | .one c => rw [Alt.den]; rw [Alt.Ok] at ok; rw [Alt.simple] at hs; rw [Alt.markless] at hm; exact Conj.bytes e c ok hs hm
  | .or a c =>
    rw [Alt.den]
    rw [Alt.Ok] at ok
    rw [Alt.simple, Bool.and_eq_true] at hs
    rw [Alt.markless, Bool.and_eq_true] at hm
    exact fun w hw => hw.elim (Alt.bytes e a ok.1 hs.1 hm.1 w) (Conj.bytes e c ok.2 hs.2 hm.2 w)
theorem Conj.bytes (e : Encoding) (c : Conj) (ok : c.Ok) (hs : c.simple = true) (hm : c.markless = true) : BytesOnly (c.den (codec e)) := by
  match c with
  | .one c => rw [Conj.den]; rw [Conj.Ok] at ok; rw [Conj.simple] at hs; rw [Conj.markless] at hm; exact Neg.bytes e c ok hs hm
  | .and _ _ => rw [Conj.simple] at hs; cases hs
theorem Neg.bytes (e : Encoding) (c : Neg) (ok : c.Ok) (hs : c.simple = true) (hm : c.markless = true) : BytesOnly (c.den (codec e)) := by
  match c with
  | .one c => rw [Neg.den]; rw [Neg.Ok] at ok; rw [Neg.simple] at hs; rw [Neg.markless] at hm; exact Cat.bytes e c ok hs hm
  | .not _ => rw [Neg.simple] at hs; cases hs
theorem Cat.bytes (e : Encoding) (c : Cat) (ok : c.Ok) (hs : c.simple = true) (hm : c.markless = true) : BytesOnly (c.den (codec e)) := by
  match c with
  | .nil =>
    rw [Cat.den]
    intro w hw
    rw [Language.mem_one] at hw
    subst hw; simp
  | .snoc c i =>
    rw [Cat.den]
    rw [Cat.Ok] at ok
    rw [Cat.simple, Bool.and_eq_true] at hs
    rw [Cat.markless, Bool.and_eq_true] at hm
    intro w hw
    rw [Language.mem_mul] at hw
    obtain ⟨a, ha, b, hb, rfl⟩ := hw
    intro x hx
    rcases List.mem_append.1 hx with hx | hx
    · exact Cat.bytes e c ok.1 hs.1 hm.1 a ha x hx
    · exact Iter.bytes e i ok.2.1 hs.2 hm.2 b hb x hx
theorem Iter.bytes (e : Encoding) (i : Iter) (ok : i.Ok) (hs : i.simple = true) (hm : i.markless = true) : BytesOnly (i.den (codec e)) := by
  match i with
  | .one t => rw [Iter.den]; rw [Iter.Ok] at ok; rw [Iter.simple] at hs; rw [Iter.markless] at hm; exact Term.bytes e t ok hs hm
  | .rep t lo hi =>
    rw [Iter.den]
    rw [Iter.Ok] at ok
    rw [Iter.simple] at hs
    rw [Iter.markless] at hm
    rintro w ⟨n, -, -, hp⟩
    exact (Term.bytes e t ok.1 hs hm).pow n w hp
theorem Term.bytes (e : Encoding) (t : Term) (ok : t.Ok) (hs : t.simple = true) (hm : t.markless = true) : BytesOnly (t.den (codec e)) := by
  match t with
  | .letters cs neg =>
    rw [Term.Ok] at ok
    cases neg with
    | false => rw [Term.den]; exact fun w hw => (charsOf_bytes e ok w hw).1
    | true => rw [Term.den]; exact fun w hw => (one_bytes e w hw.1).1
  | .dot => rw [Term.den]; exact fun w hw => (one_bytes e w hw).1
  | .bol => rw [Term.markless] at hm; cases hm
  | .eol => rw [Term.markless] at hm; cases hm
  | .group a => rw [Term.den]; rw [Term.Ok] at ok; rw [Term.simple] at hs; rw [Term.markless] at hm; exact Alt.bytes e a ok hs hm
end

mutual
theorem evalAlt_fresh (e : Encoding) (a : Alt) (ok : a.Ok) (hs : a.simple = true) (hn : a.markless = true) (s : Fields) (hr : s.rep = none) (l : List Bool)
    (hl : a.counts ≤ l.length) (hk : a.skips l = false) : (evalAlt e a (s, l)).Sat (a.plain = false) fun r => Fresh r.1 := by
  match a with
  | .one c =>
    rw [evalAlt, Alt.plain]
    rw [Alt.Ok] at ok
    rw [Alt.simple] at hs
    rw [Alt.markless] at hn
    rw [Alt.counts] at hl
    rw [Alt.skips] at hk
    exact evalConj_fresh e c ok hs hn s hr l hl hk
  | .or a c =>
    rw [evalAlt, Alt.plain]
    rw [Alt.Ok] at ok
    rw [Alt.simple, Bool.and_eq_true] at hs
    rw [Alt.markless, Bool.and_eq_true] at hn
    rw [Alt.counts] at hl
    rw [Alt.skips, Bool.or_eq_false_iff] at hk
    refine ((Sat.and (evalAlt_marked e a ok.1 hs.1 s hr l (by omega)) (evalAlt_fresh e a ok.1 hs.1 hn.1 s hr l (by omega) hk.1)).mono
      (fun h => by simp [h]) fun _ h => h).bind fun x hx => ?_
    obtain ⟨x, t⟩ := x
    obtain ⟨⟨hx, -, hm, rfl⟩, hxf⟩ := hx
    dsimp only at hx hm hxf ⊢
    refine ((Sat.and (evalConj_marked e c ok.2 hs.2 (s.after a.groups) (Fields.after_rep hr _) (l.drop a.counts) (by rw [List.length_drop]; omega))
      (evalConj_fresh e c ok.2 hs.2 hn.2 (s.after a.groups) (Fields.after_rep hr _) (l.drop a.counts) (by rw [List.length_drop]; omega) hk.2)).mono
      (fun h => by simp [h]) fun _ h => h).bind fun y hy => ?_
    obtain ⟨y, t⟩ := y
    obtain ⟨⟨hy, -, hm', rfl⟩, hyf⟩ := hy
    dsimp only at hy hm' hyf ⊢
    exact (Op.union ⟨hx.1, hm.out, hxf⟩ ⟨hy.1, hm'.out, hyf⟩).fresh
theorem evalConj_fresh (e : Encoding) (c : Conj) (ok : c.Ok) (hs : c.simple = true) (hn : c.markless = true) (s : Fields) (hr : s.rep = none) (l : List Bool)
    (hl : c.counts ≤ l.length) (hk : c.skips l = false) : (evalConj e c (s, l)).Sat (c.plain = false) fun r => Fresh r.1 := by
  match c with
  | .one n =>
    rw [evalConj, Conj.plain]
    rw [Conj.Ok] at ok
    rw [Conj.simple] at hs
    rw [Conj.markless] at hn
    rw [Conj.counts] at hl
    rw [Conj.skips] at hk
    exact evalNeg_fresh e n ok hs hn s hr l hl hk
  | .and c n => rw [Conj.simple] at hs; cases hs
theorem evalNeg_fresh (e : Encoding) (n : Neg) (ok : n.Ok) (hs : n.simple = true) (hn : n.markless = true) (s : Fields) (hr : s.rep = none) (l : List Bool)
    (hl : n.counts ≤ l.length) (hk : n.skips l = false) : (evalNeg e n (s, l)).Sat (n.plain = false) fun r => Fresh r.1 := by
  match n with
  | .one c =>
    rw [evalNeg, Neg.plain]
    rw [Neg.Ok] at ok
    rw [Neg.simple] at hs
    rw [Neg.markless] at hn
    rw [Neg.counts] at hl
    rw [Neg.skips] at hk
    exact evalCat_fresh e c ok hs hn s hr l hl hk
  | .not c => rw [Neg.simple] at hs; cases hs
theorem evalCat_fresh (e : Encoding) (c : Cat) (ok : c.Ok) (hs : c.simple = true) (hn : c.markless = true) (s : Fields) (hr : s.rep = none) (l : List Bool)
    (hl : c.counts ≤ l.length) (hk : c.skips l = false) : (evalCat e c (s, l)).Sat (c.plain = false) fun r => Fresh r.1 := by
  match c with
  | .nil =>
    rw [evalCat]
    exact Fresh.init
  | .snoc c i =>
    rw [evalCat, Cat.plain]
    rw [Cat.Ok] at ok
    rw [Cat.simple, Bool.and_eq_true] at hs
    rw [Cat.markless, Bool.and_eq_true] at hn
    rw [Cat.counts] at hl
    rw [Cat.skips, Bool.or_eq_false_iff] at hk
    refine ((Sat.and (evalCat_marked e c ok.1 hs.1 s hr l (by omega)) (evalCat_fresh e c ok.1 hs.1 hn.1 s hr l (by omega) hk.1)).mono
      (fun h => by simp [h]) fun _ h => h).bind fun a ha => ?_
    obtain ⟨a, t⟩ := a
    obtain ⟨⟨ha, hal, hae, hm, hz, rfl⟩, haf⟩ := ha
    dsimp only at ha hal hae hm hz haf ⊢
    have hlen : i.counts ≤ (l.drop c.counts).length := by rw [List.length_drop]; omega
    have hI : (evalIter e i (s.after c.groups, l.drop c.counts)).Sat (i.plain = false) fun r => [] ∈ a.Lang → ValFresh r.1 := by
      by_cases hx : [] ∈ a.Lang
      · rw [hal] at hx
        have hnl := Cat.nullable_of e c hs.1 hx
        rw [hnl, Bool.true_and] at hk
        exact (evalIter_fresh e i ok.2.1 hs.2 hn.2 (s.after c.groups) (Fields.after_rep hr _) (l.drop c.counts) hlen hk.2).mono id fun _ h _ => h
      · exact (evalIter_marked e i ok.2.1 hs.2 (s.after c.groups) (Fields.after_rep hr _) (l.drop c.counts) hlen).mono id fun _ _ h => absurd h hx
    refine ((Sat.and (evalIter_marked e i ok.2.1 hs.2 (s.after c.groups) (Fields.after_rep hr _) (l.drop c.counts) hlen) hI).mono
      (fun h => by simp [h]) fun _ h => h).bind fun v hv => ?_
    obtain ⟨v, t⟩ := v
    obtain ⟨⟨hv, hvp, hm', rfl⟩, hvf⟩ := hv
    dsimp only at hv hvp hm' hvf ⊢
    rw [ok.2.2] at hv
    refine ((appendIteration_fresh e ha hv hm' hm.out haf hvf).mono (fun h => by simp [hvp h]) fun _ h => h).bind fun g hg => ?_
    exact hg
theorem evalIter_fresh (e : Encoding) (i : Iter) (ok : i.Ok) (hs : i.simple = true) (hn : i.markless = true) (s : Fields) (hr : s.rep = none) (l : List Bool)
    (hl : i.counts ≤ l.length) (hk : i.skips l = false) : (evalIter e i (s, l)).Sat (i.plain = false) fun r => ValFresh r.1 := by
  match i with
  | .one t =>
    rw [evalIter, Iter.plain]
    rw [Iter.Ok] at ok
    rw [Iter.simple] at hs
    rw [Iter.markless] at hn
    rw [Iter.counts] at hl
    rw [Iter.skips] at hk
    exact evalTerm_fresh e t ok hs hn s hr l hl hk
  | .rep t lo hi =>
    rw [evalIter, Iter.plain]
    rw [Iter.Ok] at ok
    rw [Iter.simple] at hs
    rw [Iter.markless] at hn
    rw [Iter.counts] at hl
    rw [Iter.skips, Bool.or_eq_false_iff] at hk
    refine (Sat.and (evalTerm_marked e t ok.1 hs s hr l (by omega)) (evalTerm_fresh e t ok.1 hs hn s hr l (by omega) hk.1)).bind fun v hv => ?_
    obtain ⟨v, t'⟩ := v
    obtain ⟨⟨hv, hvp, hm, rfl⟩, hvf⟩ := hv
    dsimp only at hv hvp hm hvf ⊢
    refine ((Sat.and (convertToFsm_sat e hv) (convertToFsm_fresh e hv hvf)).mono hvp fun _ h => h).bind fun f hf => ?_
    obtain ⟨hf, hfo, hff⟩ := hf
    refine ((Sat.and (repeatAction_sat hf.1 hf.2.1 hf.2.2 ok.2.1 ok.2.2) (repeatAction_op ⟨hf.1, hfo, hff⟩ ok.2.1)).mono (fun h => h.elim) fun _ h => h).bind fun g hg => ?_
    obtain ⟨hg, hgo⟩ := hg
    obtain ⟨x, xs, hx⟩ : ∃ x xs, l.drop t.counts = x :: xs := by
      cases h : l.drop t.counts with
      | nil => rw [List.drop_eq_nil_iff] at h; omega
      | cons x xs => exact ⟨x, xs, rfl⟩
    have hx' : l.getD t.counts false = x := by
      have := congrArg (fun l => List.getD l 0 false) hx
      simpa [List.getD_eq_getElem?_getD, List.getElem?_drop] using this
    rw [hx]
    dsimp only
    rw [Fields.repeated (Fields.after_rep hr _)]
    rw [hx'] at hk
    refine ⟨repetition_out hg.1.wf hgo.out _, hgo.fresh.repetition hg.1.wf _ fun hb hmem => ?_⟩
    rw [hg.2.1] at hmem
    have hnu : (Iter.rep t lo hi).nullable = true := Iter.nullable_of e (.rep t lo hi) (by rw [Iter.simple]; exact hs) (by rw [Iter.den]; exact hmem)
    rw [Iter.nullable] at hnu
    rw [hnu, hb] at hk
    exact absurd hk.2 (by decide)
theorem evalTerm_fresh (e : Encoding) (t : Term) (ok : t.Ok) (hs : t.simple = true) (hn : t.markless = true) (s : Fields) (hr : s.rep = none) (l : List Bool)
    (hl : t.counts ≤ l.length) (hk : t.skips l = false) : (evalTerm e t (s, l)).Sat (t.plain = false) fun r => ValFresh r.1 := by
  match t with
  | .letters cs neg =>
    rw [evalTerm]; exact trivial
  | .dot => rw [evalTerm]; exact trivial
  | .bol => rw [Term.markless] at hn; cases hn
  | .eol => rw [Term.markless] at hn; cases hn
  | .group a =>
    rw [evalTerm, Term.plain]
    rw [Term.Ok] at ok
    rw [Term.simple] at hs
    rw [Term.markless] at hn
    rw [Term.counts] at hl
    rw [Term.skips] at hk
    dsimp only
    refine (Sat.and (evalAlt_marked e a ok hs s.opened (by rw [Fields.opened_rep, hr]) l hl)
      (evalAlt_fresh e a ok hs hn s.opened (by rw [Fields.opened_rep, hr]) l hl hk)).bind fun f hf => ?_
    obtain ⟨f, t'⟩ := f
    obtain ⟨⟨hf, -, hm, rfl⟩, hff⟩ := hf
    dsimp only at hf hm hff ⊢
    rw [Fields.closed hr]
    by_cases hk : s.target = 1
    · rw [if_pos hk]
      exact ⟨mark_out hf.1.wf hm.out, hff.capture hm.out hf.1.wf⟩
    · rw [if_neg hk]
      exact ⟨hm.out, hff⟩
end

end Capture
end Pire
