import Verif.Props.Easy
import Verif.Props.Glue
import Verif.Props.Io

/-!
# C63: `Regexp` objects made of scanners, copied and moved

`Easy.ofScanner`, `Easy.ofSlow` are the constructors `Regexp(Scanner)` and `Regexp(SlowScanner)`; `r.copy`, `r.move` the implicit copy and move constructors.
-/

namespace Pire.Props

open Pire Pire.Slow Pire.Spec Pire.Lex Pire.Parse Pire.Enc Pire.Easy Pire.Scn Pire.Multi Pire.Fsm

/-- `Matches`, on any platform, of any text in memory, never goes out of bounds and tells whether the text between the marks is in the language. -/
def Answers (r : Regexp) (L : Language Nat) : Prop :=
  ∀ isa, Platform isa → ∀ (mem : Mem) (b e : Nat), b ≤ e →
    ∃ a, r.Matches isa mem b e = some a ∧ (a = true ↔ BeginMark :: bytesAt mem b (e - b) ++ [EndMark] ∈ L)

/-- Words of any of the languages. -/
def anyOf (Ls : List (Language Nat)) : Language Nat := {w | ∃ L ∈ Ls, w ∈ L}

theorem mem_anyOf {Ls : List (Language Nat)} {w : List Nat} : w ∈ anyOf Ls ↔ ∃ L ∈ Ls, w ∈ L := Iff.rfl

/-- What a `Regexp` consists of when it works and its copies will: a scanner, or no scanner and a slow scanner that is not default-constructed. -/
inductive Whole (r : Regexp) (L : Language Nat) : Prop
  | fast (s : Multi) (Ls : List (Language Nat)) (hs : r.scanner = some s) (he : s.empty = false) (hv : Valid scannerPolicy s)
      (hR : Recognizes scannerPolicy s Ls) (hL : L = anyOf Ls)
  | slow (hs : ∀ s, r.scanner = some s → s.empty = true) (hv : r.slow.Valid) (hR : Slow.Recognizes r.slow L) (hc : r.slow.Complete)

theorem runner_valid {isa : Isa} (hisa : Platform isa) {s : Multi} {Ls : List (Language Nat)} (hv : Valid scannerPolicy s) (hR : Recognizes scannerPolicy s Ls)
    (mem : Mem) {b e : Nat} (hbe : b ≤ e) : (s.scn scannerPolicy).runnerBeginEndMulti isa (s.exitMasks scannerPolicy) mem b e = true ↔
      BeginMark :: bytesAt mem b (e - b) ++ [EndMark] ∈ anyOf Ls := by
  have hP : Typedef scannerPolicy := .inl rfl
  unfold runnerBeginEndMulti
  simp only
  rw [C29_valid_scanner hisa hP hv mem hbe (reached_closed _ _ reached_initial (by decide)), mem_anyOf,
    ← hR.final _ (framed_word (bytes_lt _ _ _)), List.cons_append, after_cons, after_append]
  rfl

theorem slow_answers {r : Regexp} {L : Language Nat} (hs : ∀ s, r.scanner = some s → s.empty = true) (hv : r.slow.Valid) (hR : Slow.Recognizes r.slow L) :
    Answers r L := by
  intro isa hisa mem b e hbe
  unfold Regexp.Matches
  cases hsc : r.scanner with
  | none => exact slowRunner_spec hv hR (bytes_lt _ _ _)
  | some s =>
    dsimp only
    rw [hs s hsc]
    exact slowRunner_spec hv hR (bytes_lt _ _ _)

theorem Whole.answers {r : Regexp} {L : Language Nat} (h : Whole r L) : Answers r L := by
  cases h with
  | fast s Ls hs he hv hR hL =>
    intro isa hisa mem b e hbe
    refine ⟨_, ?_, hL ▸ runner_valid hisa hv hR mem hbe⟩
    unfold Regexp.Matches
    rw [hs]
    dsimp only
    rw [he]
    rfl
  | slow hs hv hR hc => exact slow_answers hs hv hR

theorem complete_copy {s : Slow} (h : s.Complete) : s.copyCtor.Complete := by
  rcases h with ⟨h1, h2⟩ | ⟨h1, p, j, h2⟩
  · left
    unfold Slow.copyCtor
    rw [if_neg h1]
    exact ⟨h1, rfl⟩
  · right
    unfold Slow.copyCtor
    rw [if_pos h1, h2]
    exact ⟨h1, p, j, rfl⟩

theorem Whole.copy {r : Regexp} {L : Language Nat} (h : Whole r L) {own : Bool} {base : Nat}
    (ho : own = true → ∀ s, r.scanner = some s → s.empty = false ∧ Fits scannerPolicy base s.m) : Whole (r.copy own base) L := by
  cases h with
  | fast s Ls hs he hv hR hL =>
    obtain ⟨h1, h2, h3⟩ := C37_copy_constructor (own := own) (base := base) (.inl rfl) hv hR fun hx => ho hx s hs
    refine .fast _ Ls (by unfold Regexp.copy; rw [hs]; rfl) (h3.trans he) h2 h1 hL
  | slow hs hv hR hc =>
    obtain ⟨h1, h2⟩ := C37_slow_copy hv hR hc
    refine .slow (fun s hx => ?_) h2 h1 (complete_copy hc)
    unfold Regexp.copy at hx
    dsimp only at hx
    rw [Option.map_eq_some_iff] at hx
    obtain ⟨s0, e0, rfl⟩ := hx
    cases own with
    | false => exact hs s0 e0
    | true => have := (ho rfl s0 e0).1; rw [hs s0 e0] at this; cases this

theorem fits_of_copy {s : Multi} {a b : Nat} (h : Fits scannerPolicy b s.m) : Fits scannerPolicy b (deepCopy scannerPolicy scannerPolicy a s).m := by
  obtain ⟨e1, e2, e3, -⟩ := deepCopy_m scannerPolicy scannerPolicy a s
  obtain ⟨a1, a2, a3⟩ := h
  refine ⟨a1, ?_, fun hr => ?_⟩
  · unfold bufSize rowSize at a2 ⊢; rw [e1, e2, e3]; exact a2
  · have := a3 hr
    unfold rowBytes rowSize at this ⊢
    rw [e1, e2]; exact this

/-- `Regexp(scanner)` answers as the scanner does; a scanner glued of several expressions: whether any of them matches. -/
theorem C63_of_scanner {s : Multi} {Ls : List (Language Nat)} (hv : Valid scannerPolicy s) (hR : Recognizes scannerPolicy s Ls) (he : s.empty = false)
    {own : Bool} {b1 b2 : Nat} (hf : own = true → Fits scannerPolicy b1 s.m ∧ Fits scannerPolicy b2 s.m) :
    Whole (ofScanner own b1 b2 s) (anyOf Ls) ∧ Answers (ofScanner own b1 b2 s) (anyOf Ls) := by
  have hP : Typedef scannerPolicy := .inl rfl
  obtain ⟨h1, h2, h3⟩ := C37_copy_constructor (own := own) (base := b1) hP hv hR fun hx => ⟨he, (hf hx).1⟩
  have hm : own = true → Fits scannerPolicy b2 (Multi.copyCtor scannerPolicy own b1 s).m := by
    intro hx
    subst hx
    have := fits_of_copy (s := s) (a := b1) (hf rfl).2
    rw [Multi.copyCtor, if_pos rfl]
    exact this
  obtain ⟨g1, g2, g3⟩ := C37_copy_constructor (own := own) (base := b2) hP h2 h1 fun hx => ⟨h3.trans he, hm hx⟩
  have : Whole (ofScanner own b1 b2 s) (anyOf Ls) := .fast _ Ls rfl (g3.trans (h3.trans he)) g2 g1 rfl
  exact ⟨this, this.answers⟩

theorem null_slow : Slow.null.aliased.Valid ∧ Slow.Recognizes Slow.null.aliased 0 := by
  have hw : Fsm.makeFalse.WF := Good.makeFalse.wf
  have ht : Fsm.makeFalse.TagsIn (· % 256 = 0) := fun q t hq => by cases hq
  have h1 := (C24_slow_decides hw (by decide) ht).1
  rw [lang_makeFalse] at h1
  exact (slow_same (s := Slow.compile Fsm.makeFalse) (s' := Slow.null.aliased) ⟨rfl, rfl, rfl, rfl, fun _ _ => rfl⟩
    (C24_slow_valid hw (by decide) ht) h1).symm

/-- `Regexp(Scanner())` matches nothing. -/
theorem C63_of_empty_scanner {s : Multi} (he : s.empty = true) (b1 b2 : Nat) : Answers (ofScanner false b1 b2 s) 0 :=
  slow_answers (fun s' hs => by cases hs; exact he) null_slow.1 null_slow.2

/-- `Regexp(slowScanner)` answers as the slow scanner does (compiled, loaded or mapped). -/
theorem C63_of_slow {s : Slow} {L : Language Nat} (hv : s.Valid) (hR : Slow.Recognizes s L) (hc : s.Complete) (temporary : Bool) :
    Whole (ofSlow temporary s) L ∧ Answers (ofSlow temporary s) L := by
  have : Whole (ofSlow temporary s) L := by
    obtain ⟨h1, h2⟩ := C37_slow_copy hv hR hc
    refine .slow (fun _ hx => by cases hx) ?_ ?_ ?_
    · cases temporary with
      | true => exact h2
      | false => exact (C37_slow_copy h2 h1 (complete_copy hc)).2
    · cases temporary with
      | true => exact h1
      | false => exact (C37_slow_copy h2 h1 (complete_copy hc)).1
    · cases temporary with
      | true => exact complete_copy hc
      | false => exact complete_copy (complete_copy hc)
  exact ⟨this, this.answers⟩

/-- A copy, and a copy of a copy, of an expression that is made of a pattern or of a scanner answers the same (`base`: where the scanner of the copy is
allocated). -/
theorem C63_copy {r : Regexp} {L : Language Nat} (h : Whole r L) {own : Bool} {base : Nat}
    (ho : own = true → ∀ s, r.scanner = some s → s.empty = false ∧ Fits scannerPolicy base s.m) :
    Whole (r.copy own base) L ∧ Answers (r.copy own base) L := ⟨h.copy ho, (h.copy ho).answers⟩

/-- Moved: the new object answers what the old one did. -/
theorem C63_move {r : Regexp} {L : Language Nat} (h : Whole r L) : Whole r.move.1 L ∧ Answers r.move.1 L := by
  have : Whole r.move.1 L := by
    cases h with
    | fast s Ls hs he hv hR hL => exact .fast s Ls hs he hv hR hL
    | slow hs hv hR hc =>
      obtain ⟨h1, h2⟩ := C37_slow_copy hv hR hc
      exact .slow hs h2 h1 (complete_copy hc)
  exact ⟨this, this.answers⟩

variable {base : Nat} {opts : Opts} {raw s : List Nat} {f : Fsm} {r : Regexp}

/-- Expressions made of patterns are whole. -/
theorem init_whole (hd : opts.encoding.decode raw = some (some s)) (hf : parsePattern opts.features opts.encoding s = .ok f) (hg : f.Good)
    (hr : Easy.init base opts raw = .ok r) (room : Room base opts raw) :
    ∃ L, Whole r L ∧ ∀ text : List Nat, (∀ c ∈ text, c < 256) → (BeginMark :: text ++ [EndMark] ∈ L ↔ Occurs f.Lang text) := by
  have hl := (kept_least opts.encoding).parsePattern opts.features s f hf
  obtain ⟨g, sg, gg, gd, gt, gs, gl⟩ := surrounded_spec hg hl
  unfold Easy.init at hr
  rw [hd] at hr
  dsimp only at hr
  rw [ok_bind, hf, ok_bind, sg] at hr
  dsimp only at hr
  rw [ok_bind] at hr
  refine ⟨g.Lang, ?_, fun text hb => gl _ hb⟩
  have htg : ∀ M : Nat → Prop, (∀ a b, M a → M b → M (a ||| b)) → g.TagsIn M := fun M hM =>
    ((kept_tags opts.encoding hM).parsePattern opts.features s f hf).of_eq gt
  split at hr
  · rename_i hdet
    obtain ⟨dd, dl⟩ := determine_det gg hdet
    obtain ⟨-, -, dsz, -, da, -⟩ := (determine_spec gg.wf gd 0).1 hdet
    have dg : (g.determine).1.Good := Good.of_det dd da
    cases hc : Multi.compile scannerPolicy base (g.determine).1 with
    | none => rw [hc] at hr; cases hr
    | some sc =>
      rw [hc] at hr
      cases hr
      have hP : Typedef scannerPolicy := .inl rfl
      have hpl : Placed scannerPolicy base (g.determine).1 sc := ⟨room.align,
        compile_bufSize_of hP.real dg hc room.space fun _ => by simpa using dsz, fun _ => by simp at dsz; omega⟩
      obtain ⟨h1, h2, h3⟩ := compile_spec hP.real dg ((htg _ or_mod4).determine or_mod4 0) hc hpl.align hpl.space hpl.small
      refine .fast sc _ rfl h2 h1 h3 ?_
      rw [dl]
      ext w
      rw [mem_anyOf]
      simp
  · rename_i hdet
    cases hr
    have hrem := (determine_spec gg.wf gd 0).2 (by simpa using hdet)
    have hsp := removeEpsilons_spec gg.wf
    have hsz : (g.determine).1.size ≤ 2 ^ 32 := by
      have := room.states s f hd hf
      rw [hrem, hsp.size]; omega
    have hwf : (g.determine).1.WF := by rw [hrem]; exact hsp.wf
    have htt := (htg _ mod256_or).determine mod256_or 0
    have hR := (C24_slow_decides hwf hsz htt).1
    have hL : (g.determine).1.Lang = g.Lang := by rw [hrem]; exact lang_removeEpsilons gg.wf
    rw [hL] at hR
    exact .slow (fun _ hx => by cases hx) (C24_slow_valid hwf hsz htt) hR (C37_slow_compiled_complete hwf hsz)

/-- What `Regexp(pattern, options)` has become after being copied and moved any number of times: the blocks for copies are aligned and large enough. -/
inductive Passed (r : Regexp) : Regexp → Prop
  | refl : Passed r r
  | copy {r' : Regexp} (h : Passed r r') (own : Bool) (base : Nat)
      (ho : own = true → ∀ s, r'.scanner = some s → s.empty = false ∧ Fits scannerPolicy base s.m) : Passed r (r'.copy own base)
  | move {r' : Regexp} (h : Passed r r') : Passed r r'.move.1

/-- A `Regexp` made of a pattern, passed by value any number of times, answers as `C45_matches` says. -/
theorem C63_pattern {isa : Isa} (hisa : Platform isa) (ho : opts.added.Nodup) (hd : opts.encoding.decode raw = some (some s)) {ts : List Tok}
    (hp : Pattern (easyOptions opts ho).flavor s ts) {t : Alt} (ht : t.spell = ts) (ok : t.Ok) (hr : Easy.init base opts raw = .ok r)
    (room : Room base opts raw) {r' : Regexp} (hc : Passed r r') (mem : Mem) {b e : Nat} (hbe : b ≤ e) :
    ∃ a, r'.Matches isa mem b e = some a ∧ (a = true ↔ Occurs (t.den (codec opts.encoding)) (bytesAt mem b (e - b))) := by
  rcases C43_pattern_language hp ht ok opts.encoding with ⟨f, hf, hg, hL⟩ | ⟨-, hx⟩
  · have hf' : parsePattern opts.features opts.encoding s = .ok f := hf
    obtain ⟨L, hw, hLo⟩ := init_whole hd hf' hg hr room
    have hw' : Whole r' L := by
      clear mem hbe
      induction hc with
      | refl => exact hw
      | copy h own base ho ih => exact ih.copy ho
      | move h ih => exact (C63_move ih).1
    obtain ⟨a, h1, h2⟩ := hw'.answers isa hisa mem b e hbe
    rw [hLo _ (bytes_lt _ _ _), hL] at h2
    exact ⟨a, h1, h2⟩
  · exfalso
    have hx' : parsePattern opts.features opts.encoding s = .throws := hx
    unfold Easy.init at hr
    rw [hd] at hr
    dsimp only at hr
    rw [ok_bind, hx'] at hr
    cases hr

/-- What a moved-from expression answers: nothing matches if it had a scanner, as before if it had a slow one. -/
theorem C63_moved_from (hd : opts.encoding.decode raw = some (some s)) (hf : parsePattern opts.features opts.encoding s = .ok f) (hg : f.Good)
    (hr : Easy.init base opts raw = .ok r) (room : Room base opts raw) :
    (r.scanner.isSome = true → Answers r.move.2 0) ∧ (r.scanner = none → ∃ L, Answers r L ∧ Answers r.move.2 L) := by
  obtain ⟨L, hw, -⟩ := init_whole hd hf hg hr room
  constructor
  · intro hs
    have hsl : r.slow = Slow.null.aliased := by
      unfold Easy.init at hr
      rw [hd] at hr
      dsimp only at hr
      rw [ok_bind, hf, ok_bind] at hr
      cases hsf : surrounded f with
      | none => rw [hsf] at hr; cases hr
      | some g =>
        rw [hsf] at hr
        dsimp only at hr
        rw [ok_bind] at hr
        split at hr
        · split at hr
          · cases hr
          · cases hr; rfl
        · cases hr; cases hs
    refine slow_answers (fun _ hx => by cases hx) ?_ ?_
    · show r.slow.Valid; rw [hsl]; exact null_slow.1
    · show Slow.Recognizes r.slow 0; rw [hsl]; exact null_slow.2
  · intro hs
    refine ⟨L, hw.answers, ?_⟩
    cases hw with
    | fast s Ls hs' _ _ _ _ => rw [hs] at hs'; cases hs'
    | slow _ hv hR hc => exact slow_answers (fun _ hx => by cases hx) hv hR

/-! ### DEFECTS -/

theorem slowRunner_broken (text : List Nat) : slowRunner Slow.null.aliased.copyCtor text = none := by
  unfold slowRunner
  rw [C37_slow_copy_of_default_is_broken (by decide)]
  rfl

theorem copy_of_broken : Slow.null.aliased.copyCtor.copyCtor = Slow.null.aliased.copyCtor := rfl

/-- DEFECT: `Regexp(SlowScanner())` dereferences a null pointer on every text. -/
theorem C63_of_default_slow_breaks (temporary : Bool) (isa : Isa) (mem : Mem) (b e : Nat) :
    (ofSlow temporary Slow.null.aliased).Matches isa mem b e = none := by
  unfold ofSlow Regexp.Matches
  cases temporary with
  | true => exact slowRunner_broken _
  | false => dsimp only; rw [if_neg (by decide), copy_of_broken]; exact slowRunner_broken _

/-- DEFECT: a `Regexp` without expressions works (`C63_of_empty_scanner`), but a copy of it dereferences a null pointer on every text. -/
theorem C63_copy_of_empty_breaks {s : Multi} (he : s.empty = true) (b1 b2 b3 : Nat) (isa : Isa) (mem : Mem) (b e : Nat) :
    ((ofScanner false b1 b2 s).copy false b3).Matches isa mem b e = none := by
  unfold ofScanner Regexp.copy Regexp.Matches
  dsimp only [Option.map_some]
  rw [show (copyCtor scannerPolicy false b3 (copyCtor scannerPolicy false b2 (copyCtor scannerPolicy false b1 s))).empty = true from he]
  exact slowRunner_broken _

/-- DEFECT: so does a copy of a moved-from one. -/
theorem C63_copy_of_moved_breaks (hs : r.slow = Slow.null.aliased)
    (isa : Isa) (mem : Mem) (b e : Nat) (b3 : Nat) : (r.move.2.copy false b3).Matches isa mem b e = none := by
  unfold Regexp.move Regexp.copy Regexp.Matches
  dsimp only [Option.map_none]
  rw [hs]
  exact slowRunner_broken _

/-! ### The hypotheses are met -/

/-- `Regexp("a\.b", UTF8 | I)`, moved twice. -/
example : ∃ r L, Easy.init 0x1000 easySample [97, 92, 46, 98] = .ok r ∧ Whole r L ∧ Passed r r.move.1.move.1 ∧ Answers r.move.1.move.1 L := by
  have hd : easySample.encoding.decode [97, 92, 46, 98] = some (some (quote (easyOptions easySample easySample_nodup).flavor [97, 46, 98])) := by
    decide +kernel
  have hu : ∀ c ∈ [97, 46, 98], Usable c := by decide
  obtain ⟨f, hf, hg, -⟩ := C44_text (o := easyOptions easySample easySample_nodup) hu (fun _ => by decide) easySample.encoding
  obtain ⟨r, hr⟩ := init_ok 0x1000 hd hf hg
  obtain ⟨L, hw, -⟩ := init_whole hd hf hg hr easySample_room
  exact ⟨r, L, hr, hw, .move (.move .refl), (C63_move (C63_move hw).1).2⟩

/-- `Regexp` of the compiled pattern `ab`, and a copy of it. -/
example : ∃ s, Recognizes scannerPolicy s [abAnywhere.den] ∧ Answers (ofScanner true 4096 8192 s) (anyOf [abAnywhere.den]) ∧
    Answers ((ofScanner true 4096 8192 s).copy true 16384) (anyOf [abAnywhere.den]) := by
  have hP : Typedef scannerPolicy := .inl rfl
  have ok : abAnywhere.Ok := show IsWord [97, 98] by unfold IsWord; decide
  obtain ⟨f, s, hf, hs, hp, hR⟩ := abAnywhere_compiles scannerPolicy hP 64 rfl (by omega)
  obtain ⟨hg, -, -⟩ := build_spec abAnywhere ok _ hf
  obtain ⟨v, he, -⟩ := compile_spec hP.real hg (build_tagsIn _ or_mod4 _ _ hf) hs hp.align hp.space hp.small
  have hn : f.determined = false := by
    have hf0 : build abAnywhere = some (Fsm.init.appendStr [97, 98]).surround := rfl
    rw [hf0, Option.some.injEq] at hf
    rw [← hf]; exact abAnywhere_undetermined
  obtain ⟨h1, h2⟩ := C63_of_scanner (own := true) (b1 := 4096) (b2 := 8192) v hR he fun _ =>
    ⟨fits_compiled (base := 4096) hP hg hs rfl (by omega) hn, fits_compiled (base := 8192) hP hg hs rfl (by omega) hn⟩
  refine ⟨s, hR, h2, (C63_copy h1 fun _ s' hs' => ?_).2⟩
  have e : s' = deepCopy scannerPolicy scannerPolicy 8192 (deepCopy scannerPolicy scannerPolicy 4096 s) := by
    unfold ofScanner Multi.copyCtor at hs'
    rw [if_pos rfl, if_pos rfl] at hs'
    exact (Option.some.inj hs').symm
  rw [e]
  exact ⟨(deepCopy_m _ _ _ _).2.2.2.2.1, fits_of_copy (fits_of_copy (fits_compiled (base := 16384) hP hg hs rfl (by omega) hn))⟩

end Pire.Props
