import Verif.Props.Pattern
import Verif.Props.Capture
import Verif.Proofs.CaptureEval
import Verif.Proofs.CaptureTokens

/-!
# C58: `Features::Capture(k)` captures the `k`-th group

`parseCapture`, `slowCompile`, `Table.run` and `Table.getCapture` are the model of the code (Model/CaptureParse, Model/Capture).
`Spec.CPattern` is the syntax; `Alt.nth t k` is what is between the parentheses of the `k`-th group; `Alt.must t k`: every match passes it.
-/

namespace Pire
namespace Props

open Spec Lex Parse Enc Unidata Loaded Capture

variable {o : Options} {e : Encoding} {s : List Nat} {k : Nat}

/-- The pattern `s` stands for the tree `t`. -/
def Stands (o : Options) (s : List Nat) (t : Alt) : Prop := ∃ lz, CPattern o.flavor s t.spell lz

/-- The pattern is read as the tokens it stands for, and it is known which repetitions are lazy. -/
theorem C58_tokens {ts : List Tok} {lz : List Bool} (h : CPattern o.flavor s ts lz) : tokensC o.features (s.length + 1) s = .ok (ts, lz) :=
  cpattern_tokens o.implements h _ _ (by have := cpattern_length h; omega) (.refl _)

theorem parseCapture_whole {t : Alt} (h : Stands o s t) (ok : t.Ok) (hs : t.simple = true) (e : Encoding) (k : Nat) :
    (parseCapture o.features e k s).Sat (t.plain = false) fun f => FsmSpec (t.den (codec e)) t.isEmpty f ∧ f.Raw ∧
      Marked true ((t.nth k).map fun b => b.den (codec e)) (t.must k) f := by
  obtain ⟨lz, h⟩ := h
  have hc : t.counts ≤ lz.length := by rw [← cpattern_counts h, Alt.spell_counts]
  have h1 := evalAlt_marked e t ok hs (Fields.start k) rfl lz hc
  unfold parseCapture
  rw [C58_tokens h, ok_bind]
  dsimp only
  rw [(parse_iff (ts := t.spell) (a := t)).2 rfl]
  exact h1.bind fun r hr => ⟨hr.1, hr.2.1, hr.2.2.1⟩

/-- Whatever group is to be captured, the language is that of the pattern. -/
theorem C58_language {t : Alt} (h : Stands o s t) (ok : t.Ok) (hs : t.simple = true) (e : Encoding) (k : Nat) :
    (∃ f, parseCapture o.features e k s = .ok f ∧ f.Good ∧ f.Lang = t.den (codec e)) ∨ (t.plain = false ∧ parseCapture o.features e k s = .throws) := by
  have := parseCapture_whole h ok hs e k
  cases hr : parseCapture o.features e k s with
  | ok f => rw [hr] at this; exact .inl ⟨f, rfl, this.1.1, this.1.2.1⟩
  | throws => rw [hr] at this; exact .inr ⟨this, rfl⟩
  | bad => rw [hr] at this; exact this.elim

/-- Groups are numbered from 1. -/
theorem C58_numbered (t : Alt) (k : Nat) : (∃ a, t.nth k = some a) ↔ 1 ≤ k ∧ k ≤ t.groups := by
  rw [← Alt.nth_isSome, Option.isSome_iff_exists]

/-- A slow capturing scanner for the pattern as it is, or for its occurrences anywhere in the text. -/
structure Searches (o : Options) (e : Encoding) (s : List Nat) (k : Nat) (t : Alt) (f g : Fsm) : Prop where
  stands : Stands o s t
  ok : t.Ok
  simple : t.simple = true
  parsed : parseCapture o.features e k s = .ok f
  search : g = f ∨ g = f.surround
  small : g.size ≤ 2 ^ 32

variable {t : Alt} {f g : Fsm}

theorem Searches.whole (h : Searches o e s k t f g) : FsmSpec (t.den (codec e)) t.isEmpty f ∧ f.Raw ∧
    Marked true ((t.nth k).map fun b => b.den (codec e)) (t.must k) f := by
  have := parseCapture_whole h.stands h.ok h.simple e k
  rw [h.parsed] at this
  exact this

theorem surround_outputs (f : Fsm) : f.surround.outputs = f.outputs := by
  unfold Fsm.surround
  simp [Fsm.prependAnything, Fsm.appendAnything, Fsm.setFinal, Fsm.clearFinal, Fsm.resize, Fsm.connectFinal, Fsm.clearHints]

theorem Searches.ready (h : Searches o e s k t f g) : SlowReady g := by
  obtain ⟨h1, h2, h3⟩ := h.whole
  have ht : f.TagsIn (· % 256 = 0) := fun q x hq => by rw [h3.tags q x hq]
  rcases h.search with hg | hg
  · subst hg
    exact ⟨h3.good.wf, h2, h.small, ht, fun q p => lt_trans (h3.bnd q p) (by norm_num)⟩
  · subst hg
    refine ⟨h3.good.wf.surround, ?_, h.small, ht.of_eq (Fsm.surround_tags f), fun q p => ?_⟩
    · unfold Fsm.Raw Fsm.surround
      rw [Fsm.appendAnything_letters, Fsm.prependAnything_letters]; exact h2
    · rw [output_congr (surround_outputs f)]
      exact lt_trans (h3.bnd q p) (by norm_num)

theorem Searches.lab (h : Searches o e s k t f g) : ∃ In R Pre, Lab (((t.nth k).map fun b => b.den (codec e)).getD 0) g In R Pre ∧ ¬ In 0 ∧
    (t.must k = true → Pre g.initial ∧ Pre 0) := by
  obtain ⟨h1, h2, h3⟩ := h.whole
  obtain ⟨In, R, Pre, h4, h5, h6, h7⟩ := h3.lab
  obtain ⟨h8, h9, -⟩ := h7 rfl
  rcases h.search with hg | hg
  · subst hg
    exact ⟨In, R, Pre, h4, h8, fun hm => ⟨h6 hm, h9 hm⟩⟩
  · subst hg
    refine ⟨In, R, _, (h4.prepend h3.good.wf).appendAny h3.good.wf.prependAnything, h8, fun hm => ⟨?_, .inl (h9 hm)⟩⟩
    refine .inr ⟨h6 hm, ?_⟩
    unfold Fsm.surround
    rw [Fsm.appendAnything_initial, Fsm.prependAnything_initial]

/-- A reading of a pattern with a group in it. -/
theorem reads_marked {L : Language Nat} {In : Nat → Prop} {R : Nat → Language Nat} {Pre : Nat → Prop} (hl : Lab L g In R Pre) (h0 : ¬ In 0) {m : Bool}
    (hm : m = true → Pre g.initial ∧ Pre 0) {u : List Nat} {x : Single} (hr : Reads g u x) (ha : Accepts g x.num) :
    (opt x.beg = none ∧ opt x.fin = none ∧ m = false) ∨ ∃ b, opt x.beg = some b ∧ b ≤ u.length ∧
      ((∃ e, opt x.fin = some e ∧ b ≤ e ∧ e ≤ u.length ∧ (u.drop b).take (e - b) ∈ L) ∨ (opt x.fin = none ∧ u.drop b ++ [259] ∈ L)) := by
  obtain ⟨r, p, l, ext, pf, hS, hE, hu, hext, hrun, hpf, hb, he⟩ := reads_steps hr ha
  have hr0 : ¬ In r := by
    rcases hS with h | h
    · rw [h]; exact hl.init
    · rw [h]; exact h0
  have pass : Bracketed L ((258, g.output r p) :: (l ++ ext)) → ∃ b, opt x.beg = some b ∧ b ≤ u.length ∧
      ((∃ e, opt x.fin = some e ∧ b ≤ e ∧ e ≤ u.length ∧ (u.drop b).take (e - b) ∈ L) ∨ (opt x.fin = none ∧ u.drop b ++ [259] ∈ L)) := by
    intro hB
    obtain ⟨ha0, b, h1, h2, h3⟩ := bracketed_positions hext hB
    rw [← hu]
    rw [firstWith_cons, if_neg (by simp [ha0.1])] at hb
    rw [firstWith_cons, if_neg (by simp [ha0.2])] at he
    exact ⟨b, hb.trans h1, h2, h3.imp (fun ⟨e, h4, h5⟩ => ⟨e, he.trans h4, h5⟩) fun ⟨h4, h5⟩ => ⟨he.trans h4, h5⟩⟩
  cases m with
  | true =>
    have hp : Pre r := by
      rcases hS with h | h
      · rw [h]; exact (hm rfl).1
      · rw [h]; exact (hm rfl).2
    exact .inr (pass (hl.through hrun hp hpf))
  | false =>
    rcases hl.outside hrun hr0 (hl.fin pf hpf) with hq | hB
    · refine .inl ⟨?_, ?_, rfl⟩
      · rw [hb, firstWith_cons, if_neg (by simp [(hq (258, g.output r p) (by simp)).1])]
        exact firstWith_none 0 l (fun y hy => (hq y (by simp [hy])).1) 0
      · rw [he, firstWith_cons, if_neg (by simp [(hq (258, g.output r p) (by simp)).2])]
        exact firstWith_none 1 l (fun y hy => (hq y (by simp [hy])).2) 0
    · exact .inr (pass hB)

/-- `C48_slow_capture` without a distance. -/
theorem slow_capture (h : SlowReady g) {w : List Nat} (hw : IsWord w) (hl : w.length < npos) :
    ∃ st r, (slowCompile g).run w = some st ∧ (slowCompile g).getCapture st = some r ∧
      (∀ x, r.2 = some x → Accepts g x.num ∧ ∃ u, u <+: w ∧ Reads g u x) ∧
      (r.2.isSome = true ↔ ∃ u, u <+: w ∧ ∃ q tr, Thread g.Edge g.output (Starts g) u q tr ∧ Accepts g q) ∧
      (r.2 = none → r.1 = false) ∧ ∀ x, r = (false, some x) → opt x.beg = none :=
  C48_slow_capture (f := g) (d := 0) h hw hl

/-- The captured text matches the `k`-th group.  Whatever `GetCapture` reports after a text: either nothing is captured, and then there are matches that do
not pass the `k`-th group; or `GetCapture` returns `true` and the text from `Begin()` to `End()` matches what is between the parentheses of the `k`-th group; if
there is no `End()` then the text from `Begin()` on, up to some position, with the end mark, does. -/
theorem C58_captured_text (h : Searches o e s k t f g) {w : List Nat} (hw : IsWord w) (hl : w.length < npos) :
    ∃ st r, (slowCompile g).run w = some st ∧ (slowCompile g).getCapture st = some r ∧ ∀ x, r.2 = some x →
      (opt x.beg = none ∧ opt x.fin = none ∧ t.must k = false) ∨
      ∃ a u b, t.nth k = some a ∧ r.1 = true ∧ u <+: w ∧ opt x.beg = some b ∧ b ≤ u.length ∧
        ((∃ c, opt x.fin = some c ∧ b ≤ c ∧ c ≤ w.length ∧ (w.drop b).take (c - b) ∈ a.den (codec e)) ∨
          (opt x.fin = none ∧ u.drop b ++ [259] ∈ a.den (codec e))) := by
  obtain ⟨st, r, hst, hr, h1, -, -, h4⟩ := slow_capture h.ready hw hl
  refine ⟨st, r, hst, hr, ?_⟩
  intro x hx
  obtain ⟨ha, u, hu, hrd⟩ := h1 x hx
  obtain ⟨In, R, Pre, i1, i2, i3⟩ := h.lab
  rcases reads_marked i1 i2 i3 hrd ha with hn | ⟨b, hb, hbu, hor⟩
  · exact .inl hn
  · have hsome : ∃ a, t.nth k = some a := by
      cases hn : t.nth k with
      | some a => exact ⟨a, rfl⟩
      | none =>
        rw [hn] at hor
        rcases hor with ⟨c, -, -, -, h5⟩ | ⟨-, h5⟩ <;> exact absurd h5 (Language.notMem_zero _)
    obtain ⟨a, hn⟩ := hsome
    rw [hn] at hor
    refine .inr ⟨a, u, b, hn, ?_, hu, hb, hbu, ?_⟩
    · cases hr1 : r.1 with
      | true => rfl
      | false =>
        have := h4 x (by rw [← hr1, ← hx])
        rw [hb] at this; cases this
    · rcases hor with ⟨c, he, h5, h6, h7⟩ | h5
      · refine .inl ⟨c, he, h5, h6.trans hu.length_le, ?_⟩
        obtain ⟨v, rfl⟩ := hu
        rw [List.drop_append_of_le_length hbu, List.take_append_of_le_length (by rw [List.length_drop]; omega)]
        exact h7
      · exact .inr h5

/-- So if every match passes the `k`-th group then something is captured whenever something is found. -/
theorem C58_mandatory_group (h : Searches o e s k t f g) (hm : t.must k = true) {w : List Nat} (hw : IsWord w) (hl : w.length < npos) :
    ∃ st r, (slowCompile g).run w = some st ∧ (slowCompile g).getCapture st = some r ∧ ∀ x, r.2 = some x → r.1 = true ∧ ∃ b, opt x.beg = some b := by
  obtain ⟨st, r, hst, hr, h1⟩ := C58_captured_text h hw hl
  refine ⟨st, r, hst, hr, fun x hx => ?_⟩
  rcases h1 x hx with ⟨-, -, h2⟩ | ⟨a, u, b, -, h2, -, h3, -⟩
  · rw [hm] at h2; cases h2
  · exact ⟨h2, b, h3⟩

/-- Nothing is captured if there is no `k`-th group. -/
theorem C58_no_group (h : Searches o e s k t f g) (hk : k = 0 ∨ t.groups < k) {w : List Nat} (hw : IsWord w) (hl : w.length < npos) :
    ∃ st r, (slowCompile g).run w = some st ∧ (slowCompile g).getCapture st = some r ∧ ∀ x, r.2 = some x → opt x.beg = none ∧ opt x.fin = none := by
  obtain ⟨st, r, hst, hr, h1⟩ := C58_captured_text h hw hl
  refine ⟨st, r, hst, hr, fun x hx => ?_⟩
  rcases h1 x hx with ⟨h2, h3, -⟩ | ⟨a, u, b, h2, -⟩
  · exact ⟨h2, h3⟩
  · have := (C58_numbered t k).1 ⟨a, h2⟩
    omega

/-! ### What is found -/

theorem surround_edge (h : f.WF) (q c p : Nat) : f.surround.Edge q c p ↔ f.prependAnything.Edge q c p ∨
    (q = f.prependAnything.size ∧ p = f.prependAnything.size ∧ c < 264) ∨ (q ∈ f.prependAnything.finals ∧ p = f.prependAnything.size ∧ c = 257) := by
  unfold Fsm.surround
  exact Fsm.appendAnything_edge h.prependAnything q c p

theorem surround_run (h : f.WF) : (∀ q w p, Run f.Edge q w p → Run f.surround.Edge q w p) ∧ Run f.surround.Edge f.size [] f.initial ∧
    (∀ p ∈ f.finals, Run f.surround.Edge p [] f.prependAnything.size) ∧ (∀ c < 264, f.surround.Edge f.size c f.size) ∧
    ∀ A S u q, S f.size → Run f.surround.Edge f.size u q → ∃ tr, Thread f.surround.Edge A S u q tr := by
  have h1 := surround_edge h
  have h2 := Fsm.prependAnything_edge h
  obtain ⟨E, hE⟩ : ∃ E, E = f.surround.Edge := ⟨_, rfl⟩
  rw [← hE] at h1 ⊢
  obtain ⟨E', hE'⟩ : ∃ E', E' = f.prependAnything.Edge := ⟨_, rfl⟩
  rw [← hE'] at h1 h2
  clear hE hE'
  refine ⟨fun q w p hr => hr.mono fun q c p hx => (h1 q c p).2 (.inl ((h2 q c p).2 (.inl hx))), ?_, fun p hp => ?_, fun c hc => ?_, fun A S u q hS hr => ?_⟩
  · exact .eps ((h1 _ _ _).2 (.inl ((h2 _ _ _).2 (.inr (.inr ⟨rfl, rfl, rfl⟩))))) (.refl _)
  · exact .eps ((h1 _ _ _).2 (.inr (.inr ⟨by rw [Fsm.prependAnything_finals]; exact hp, rfl, rfl⟩))) (.refl _)
  · exact (h1 _ _ _).2 (.inl ((h2 _ _ _).2 (.inr (.inl ⟨rfl, rfl, hc⟩))))
  · exact thread_iff.2 ⟨_, _, hS, (h1 _ _ _).2 (.inl ((h2 _ _ _).2 (.inr (.inl ⟨rfl, rfl, by decide⟩)))), hr⟩

/-- Every occurrence of the pattern is found. -/
theorem C58_finds (h : Searches o e s k t f f.surround) {w : List Nat} (hw : IsWord w) (hl : w.length < npos) {v : List Nat} (hv : v ∈ t.den (codec e))
    (hvw : v <:+: w) : ∃ st r, (slowCompile f.surround).run w = some st ∧ (slowCompile f.surround).getCapture st = some r ∧ r.2.isSome = true := by
  obtain ⟨st, r, hst, hr, -, h2, -⟩ := slow_capture h.ready hw hl
  refine ⟨st, r, hst, hr, h2.2 ?_⟩
  obtain ⟨⟨h3, h4, -⟩, -, -⟩ := h.whole
  rw [← h4] at hv
  obtain ⟨p, hp, hrun⟩ := hv
  obtain ⟨a, b, rfl⟩ := hvw
  have hwf := h3.wf
  obtain ⟨lift, e1, e2, loop, thr⟩ := surround_run hwf
  have loops : ∀ a : List Nat, IsWord a → Run f.surround.Edge f.size a f.size := by
    intro a
    induction a with
    | nil => intro _; exact .refl _
    | cons c a ih =>
      intro ha
      have hc := ha c (by simp)
      exact .step hc.2 (loop c hc.1) (ih fun d hd => ha d (by simp [hd]))
  have hfull : Run f.surround.Edge f.size (a ++ v) f.prependAnything.size :=
    by simpa using (loops a fun c hc => hw c (by simp [hc])).trans (e1.trans ((lift _ _ _ hrun).trans (e2 p hp)))
  refine ⟨a ++ v, ⟨b, by simp⟩, f.prependAnything.size, ?_⟩
  obtain ⟨tr, ht⟩ := thr f.surround.output (Starts f.surround) _ _ (.inl (by unfold Fsm.surround; rw [Fsm.appendAnything_initial, Fsm.prependAnything_initial])) hfull
  refine ⟨tr, ht, .inl ?_⟩
  unfold Fsm.surround
  rw [Fsm.appendAnything_finals]; simp

/-- Only occurrences of the pattern are found: in the text up to some position, between the begin mark and the end mark. -/
theorem C58_found (h : Searches o e s k t f f.surround) {w : List Nat} (hw : IsWord w) (hl : w.length < npos) :
    ∃ st r, (slowCompile f.surround).run w = some st ∧ (slowCompile f.surround).getCapture st = some r ∧
      (r.2.isSome = true → ∃ u, u <+: w ∧ ∃ v ∈ t.den (codec e), v <:+: 258 :: (u ++ [259])) := by
  obtain ⟨st, r, hst, hr, h1, -⟩ := slow_capture h.ready hw hl
  refine ⟨st, r, hst, hr, fun hx => ?_⟩
  obtain ⟨x, hx⟩ := Option.isSome_iff_exists.1 hx
  obtain ⟨ha, u, hu, hrd⟩ := h1 x hx
  refine ⟨u, hu, ?_⟩
  obtain ⟨⟨h3, h4, -⟩, -, h5⟩ := h.whole
  obtain ⟨In, R, Pre, -, -, -, h6⟩ := h5.lab
  have hwf := h3.wf
  obtain ⟨lift, e1, -⟩ := surround_run hwf
  have hin : f.surround.initial = f.size := by unfold Fsm.surround; rw [Fsm.appendAnything_initial, Fsm.prependAnything_initial]
  have h0 : Run f.surround.Edge f.surround.initial [] 0 := by
    rw [hin]
    rcases (h6 rfl).2.2 with h7 | ⟨-, h7⟩
    · rw [h7] at e1; exact e1
    · exact e1.trans (lift _ _ _ (.eps h7 (.refl _)))
  have key : ∀ r v, Starts f.surround r → 258 :: v ∈ f.surround.LangFrom r → IsWord v → ∃ m ∈ t.den (codec e), m <:+: 258 :: v := by
    intro r v hS hL hv
    have : 258 :: v ∈ f.surround.Lang := by
      obtain ⟨p, hp, hrun⟩ := hL
      rcases hS with hS | hS
      · rw [hS] at hrun; exact ⟨p, hp, hrun⟩
      · rw [hS] at hrun; exact ⟨p, hp, h0.trans hrun⟩
    rw [Fsm.lang_surround hwf, h4] at this
    simp only [Language.mem_mul] at this
    obtain ⟨_, ⟨a, -, b, hb, rfl⟩, c, -, h8⟩ := this
    exact ⟨b, hb, a, c, h8⟩
  obtain ⟨r, hS, hor⟩ := C48_slow_sound hrd ha
  have hwu : IsWord u := fun c hc => hw c (hu.subset hc)
  rcases hor with hL | hL
  · obtain ⟨m, hm, hm'⟩ := key r u hS hL hwu
    exact ⟨m, hm, hm'.trans ⟨[], [259], by simp⟩⟩
  · obtain ⟨m, hm, hm'⟩ := key r (u ++ [259]) hS hL (by
      intro c hc
      rcases List.mem_append.1 hc with hc | hc
      · exact hwu c hc
      · rw [List.mem_singleton.1 hc]; exact ⟨by decide, by decide⟩)
    exact ⟨m, hm, hm'⟩

theorem infix_inner {v u : List Nat} (hv : ∀ c ∈ v, c < 258) (h : v <:+: 258 :: (u ++ [259])) : v <:+: u := by
  rcases List.infix_cons_iff.1 h with h | h
  · cases v with
    | nil => exact List.nil_infix
    | cons c v =>
      obtain ⟨x, hx⟩ := h
      injection hx with hx
      have := hv c (by simp); omega
  · rcases List.infix_concat_iff.1 h with h | h
    · rcases List.eq_nil_or_concat v with rfl | ⟨v', c, rfl⟩
      · exact List.nil_infix
      · obtain ⟨x, hx⟩ := h
        have hc := congrArg List.getLast? hx
        simp at hc
        have := hv c (by simp); omega
    · exact h

/-- A pattern without `^` and `$` is found exactly where it occurs. -/
theorem C58_found_iff (h : Searches o e s k t f f.surround) (hm : ∀ v ∈ t.den (codec e), ∀ c ∈ v, c < 256) {w : List Nat} (hw : IsWord w) (hl : w.length < npos) :
    ∃ st r, (slowCompile f.surround).run w = some st ∧ (slowCompile f.surround).getCapture st = some r ∧
      (r.2.isSome = true ↔ ∃ v ∈ t.den (codec e), v <:+: w) := by
  obtain ⟨st, r, hst, hr, h1⟩ := C58_found h hw hl
  refine ⟨st, r, hst, hr, fun hx => ?_, fun ⟨v, hv, hvw⟩ => ?_⟩
  · obtain ⟨u, hu, v, hv, hvu⟩ := h1 hx
    exact ⟨v, hv, (infix_inner (fun c hc => lt_trans (hm v hv c hc) (by decide)) hvu).trans hu.isInfix⟩
  · obtain ⟨st', r', hst', hr', h2⟩ := C58_finds h hw hl hv hvw
    rw [hst] at hst'; injection hst' with hst'; subst hst'
    rw [hr] at hr'; injection hr' with hr'; subst hr'
    exact h2

end Props
end Pire
