import Verif.Proofs.Easy
import Verif.Props.Pattern
import Verif.Props.Slow

/-!
# C45: the easy interface

`Easy.init base opts raw` is `Pire::Regexp(raw, opts)`; `r.Matches isa mem b e` is `r.Matches(b, e)` on the text that lies in memory
from `b` to `e`.
-/

namespace Pire.Props

open Pire Pire.Slow Pire.Spec Pire.Lex Pire.Parse Pire.Enc Pire.Easy Pire.Scn Pire.Multi Pire.Fsm

/-- A word of the language occurs somewhere in the text; `^` and `$` stand for the places before and behind it. -/
def Occurs (L : Language Nat) (text : List Nat) : Prop := ∃ u v x, BeginMark :: text ++ [EndMark] = u ++ v ++ x ∧ v ∈ L

/-- The syntax options of `Regexp`. -/
def easyOptions (l : Opts) (h : l.added.Nodup) : Options where
  list := l.added
  nodup := h
  opt := by
    intro f hf
    unfold Opts.added at hf
    rw [List.mem_filterMap] at hf
    obtain ⟨o, -, ho⟩ := hf
    cases o <;> simp at ho <;> simp [← ho]

theorem framed_word {text : List Nat} (h : ∀ c ∈ text, c < 256) : IsWord (BeginMark :: text ++ [EndMark]) := by
  intro c hc
  rcases List.mem_cons.1 hc with rfl | hc
  · exact by decide
  rcases List.mem_append.1 hc with hc | hc
  · have := h c hc
    unfold IsLetter
    omega
  · rw [List.mem_singleton.1 hc]; decide

theorem word_left {u v : List Nat} (h : IsWord (u ++ v)) : IsWord u := fun c hc => h c (List.mem_append_left _ hc)
theorem word_right {u v : List Nat} (h : IsWord (u ++ v)) : IsWord v := fun c hc => h c (List.mem_append_right _ hc)

/-- A `BeginMark` can only be the first letter of `^text$`. -/
theorem begin_first {text u v : List Nat} (h : ∀ c ∈ text, c < 256) (he : BeginMark :: text ++ [EndMark] = u ++ 258 :: v) : u = [] := by
  cases u with
  | nil => rfl
  | cons d u =>
    exfalso
    rw [List.cons_append, List.cons_append] at he
    have := (List.cons.inj he).2
    have hm : 258 ∈ text ++ [EndMark] := by rw [this]; simp
    rcases List.mem_append.1 hm with hm | hm
    · have := h _ hm; omega
    · simp [EndMark] at hm

/-- What `Init` makes of the automaton of the pattern. -/
theorem surrounded_spec {f : Fsm} (h : f.Good) (hl : f.Least) : ∃ g, surrounded f = some g ∧ g.Good ∧ g.determined = false ∧
    g.tags = f.tags ∧ g.size ≤ f.size + 2 ∧
    ∀ text : List Nat, (∀ c ∈ text, c < 256) → (BeginMark :: text ++ [EndMark] ∈ g.Lang ↔ Occurs f.Lang text) := by
  obtain ⟨b, hb, hs⟩ := beginsWithCircumflex_spec h.wf
  unfold surrounded
  rw [hb]
  cases b with
  | false =>
    refine ⟨f.prependAnything.appendAnything, rfl, h.prependAnything.appendAnything, rfl, ?_, ?_, ?_⟩
    · rw [appendAnything_tags, prependAnything_tags]
    · simp [appendAnything, prependAnything, clearFinal, setFinal]
    · intro text ht
      have hw := framed_word ht
      have := C10_surround h.wf (BeginMark :: text ++ [EndMark])
      rw [surround] at this
      rw [this]
      constructor
      · rintro ⟨u, x, v, e, -, hx, -⟩
        exact ⟨u, x, v, e, hx⟩
      · rintro ⟨u, x, v, e, hx⟩
        rw [e] at hw
        exact ⟨u, x, v, e, word_left (word_left hw), hx, word_right hw⟩
  | true =>
    refine ⟨f.appendAnything, rfl, h.appendAnything, rfl, appendAnything_tags f, ?_, ?_⟩
    · simp [appendAnything, clearFinal, setFinal]
    · intro text ht
      have hw := framed_word ht
      rw [C10_append_anything h.wf]
      constructor
      · rintro ⟨u, v, e, hu, -⟩
        exact ⟨[], u, v, e, hu⟩
      · rintro ⟨u, v, x, e, hv⟩
        have hw' := hw
        rw [e] at hw'
        cases v with
        | nil => exact ⟨[], _, rfl, hv, hw⟩
        | cons c v =>
          obtain ⟨hk, h258⟩ := hs rfl c v hv
          have hc : c = 258 ∨ (258 < c ∧ c ≠ 257) := by
            unfold key at hk
            split at hk
            · cases hk
            · rename_i hc
              unfold Partition.repOr at hk
              cases hi : f.letters.inv c with
              | none => rw [hi] at hk; exact .inl hk
              | some r =>
                rw [hi] at hk
                have hk : r = 258 := hk
                have := hl c r hi
                by_cases h1 : c = 258
                · exact .inl h1
                · exact .inr ⟨by omega, hc⟩
          rcases hc with rfl | ⟨hc, -⟩
          · have : u = [] := begin_first ht (v := v ++ x) (by rw [e]; simp)
            subst this
            exact ⟨258 :: v, x, e, hv, word_right hw'⟩
          · -- the end mark, which the automaton does not tell from the begin mark
            have hve : v = [] := by
              by_contra hne
              have hmem : c ∈ (BeginMark :: text) := by
                have e' : BeginMark :: text ++ [EndMark] = (u ++ c :: (v ++ x)) := by rw [e]; simp
                have hne' : v ++ x ≠ [] := by simp [hne]
                have : BeginMark :: text = (u ++ c :: (v ++ x)).dropLast := by rw [← e', List.dropLast_concat]
                rw [this, List.dropLast_append_of_ne_nil (by simp), List.dropLast_cons_of_ne_nil hne']
                simp
              rcases List.mem_cons.1 hmem with h1 | h1
              · rw [h1] at hc; simp [BeginMark] at hc
              · have := ht c h1; omega
            subst hve
            exact ⟨[258], text ++ [EndMark], rfl, h258, word_right (u := [BeginMark]) hw⟩

/-- Enough room: the block of the scanner is allocated in the lower half of the address space, 8-aligned, and the states of the
automaton of the pattern can be counted in 32 bits. -/
structure Room (base : Nat) (opts : Opts) (raw : List Nat) : Prop where
  align : base % 8 = 0
  space : base ≤ 2 ^ 63
  states : ∀ s f, opts.encoding.decode raw = some (some s) → parsePattern opts.features opts.encoding s = .ok f → f.size + 2 ≤ 2 ^ 32

theorem mod256_or (a b : Nat) (ha : a % 256 = 0) (hb : b % 256 = 0) : (a ||| b) % 256 = 0 := by
  rw [show (256 : Nat) = 2 ^ 8 from rfl] at *
  rw [Nat.or_mod_two_pow, ha, hb]; rfl

/-- The runner over a `SlowScanner`. -/
theorem slowRunner_spec {s : Slow} {L : Language Nat} (hv : s.Valid) (hR : Slow.Recognizes s L) {text : List Nat} (ht : ∀ c ∈ text, c < 256) :
    ∃ b, slowRunner s text = some b ∧ (b = true ↔ BeginMark :: text ++ [EndMark] ∈ L) := by
  have hw := framed_word ht
  have hw1 : IsWord [BeginMark] := fun c hc => hw c (by simp at hc; simp [hc])
  have hwt : IsWord text := fun c hc => hw c (by simp [hc])
  obtain ⟨st, b, e1, -, -, -, e2, e3, -⟩ := hR.read _ hw
  refine ⟨b, ?_, e3⟩
  obtain ⟨a1, n, E, F, h, o, hs⟩ := slow_after hv hw1
  have hss : s.initState.flags.size = n := (initState_size s).trans h.states
  have ev : s.run (s.scn.after s.scn.initial [BeginMark]) text = text.foldlM s.next (s.scn.after s.scn.initial [BeginMark]) :=
    runLoop_eq h text _ _ hwt o hs (ok_initState h).1 hss
  rw [List.cons_append, List.foldlM_cons] at e1
  have a2 : s.next s.initState BeginMark = some (s.scn.after s.scn.initial [BeginMark]) := by
    rw [List.foldlM_cons] at a1
    cases hx : s.next s.initState BeginMark with
    | none => rw [hx] at a1; cases a1
    | some y => rw [hx] at a1; exact a1
  unfold slowRunner
  rw [a2] at e1 ⊢
  simp only [Option.bind_eq_bind, Option.bind_some] at e1 ⊢
  rw [ev]
  rw [List.foldlM_append] at e1
  cases hx : text.foldlM s.next (s.scn.after s.scn.initial [BeginMark]) with
  | none => rw [hx] at e1; cases e1
  | some y =>
    rw [hx] at e1
    simp only [Option.bind_eq_bind, Option.bind_some, List.foldlM_cons, List.foldlM_nil] at e1 ⊢
    cases hy : s.next y EndMark with
    | none => rw [hy] at e1; cases e1
    | some z =>
      rw [hy] at e1
      simp only [Option.bind_some, Option.pure_def, Option.some.injEq] at e1 ⊢
      rw [e1]
      exact e2

theorem bytes_lt (mem : Mem) (b n : Nat) : ∀ c ∈ bytesAt mem b n, c < 256 := by
  induction n generalizing b with
  | zero => intro c hc; cases hc
  | succ n ih =>
    intro c hc
    rcases List.mem_cons.1 hc with rfl | hc
    · exact (mem b).2
    · exact ih _ c hc

variable {isa : Isa} {base : Nat} {opts : Opts} {raw s : List Nat} {f : Fsm} {r : Regexp}

/-- The compiled expression finds the occurrences of words of the automaton of the pattern. -/
theorem matches_automaton (hisa : Platform isa) (hd : opts.encoding.decode raw = some (some s))
    (hf : parsePattern opts.features opts.encoding s = .ok f) (hg : f.Good) (hr : Easy.init base opts raw = .ok r) (room : Room base opts raw)
    (mem : Mem) {b e : Nat} (hbe : b ≤ e) :
    ∃ a, r.Matches isa mem b e = some a ∧ (a = true ↔ Occurs f.Lang (bytesAt mem b (e - b))) := by
  have hb := bytes_lt mem b (e - b)
  have hl := (kept_least opts.encoding).parsePattern opts.features s f hf
  obtain ⟨g, sg, gg, gd, gt, gs, gl⟩ := surrounded_spec hg hl
  have hr0 := hr
  unfold Easy.init at hr
  rw [hd] at hr
  dsimp only at hr
  rw [ok_bind, hf, ok_bind, sg] at hr
  dsimp only at hr
  rw [ok_bind] at hr
  rw [← gl _ hb]
  have htg : ∀ M : Nat → Prop, (∀ a b, M a → M b → M (a ||| b)) → g.TagsIn M := fun M hM =>
    ((kept_tags opts.encoding hM).parsePattern opts.features s f hf).of_eq gt
  split at hr
  · rename_i hdet
    obtain ⟨dd, dl⟩ := determine_det gg hdet
    obtain ⟨-, -, dsz, -, da, -⟩ := (determine_spec gg.wf gd 0).1 hdet
    have dg : (g.determine).1.Good := Good.of_det dd da
    cases hc : Multi.compile scannerPolicy base (g.determine).1 with
    | none => rw [hc] at hr; cases hr
    | some sc =>
      rw [hc] at hr
      cases hr
      have hP : Typedef scannerPolicy := .inl rfl
      have hpl : Placed scannerPolicy base (g.determine).1 sc := ⟨room.align,
        compile_bufSize_of hP.real dg hc room.space fun _ => by simpa using dsz, fun _ => by simp at dsz; omega⟩
      have hne : sc.empty = false := (compile_spec hP.real dg ((htg _ or_mod4).determine or_mod4 0) hc hpl.align hpl.space hpl.small).2.1
      have := C30_runner_iff_accepted hisa hP dg ((htg _ or_mod4).determine or_mod4 0) hc hpl mem hbe
      rw [dl] at this
      refine ⟨_, ?_, this⟩
      unfold Regexp.Matches
      dsimp only
      rw [hne]; rfl
  · rename_i hdet
    cases hr
    have hrem := (determine_spec gg.wf gd 0).2 (by simpa using hdet)
    have hsp := removeEpsilons_spec gg.wf
    have hsz : (g.determine).1.size ≤ 2 ^ 32 := by
      have := room.states s f hd hf
      rw [hrem, hsp.size]; omega
    have hwf : (g.determine).1.WF := by rw [hrem]; exact hsp.wf
    have htt := (htg _ mod256_or).determine mod256_or 0
    have hR := (C24_slow_decides hwf hsz htt).1
    have hL : (g.determine).1.Lang = g.Lang := by rw [hrem]; exact lang_removeEpsilons gg.wf
    rw [hL] at hR
    exact slowRunner_spec (C24_slow_valid hwf hsz htt) hR hb

/-- A pattern that parses yields an expression: compilation does not throw, whatever the size of the automaton. -/
theorem init_ok (base : Nat) (hd : opts.encoding.decode raw = some (some s))
    (hf : parsePattern opts.features opts.encoding s = .ok f) (hg : f.Good) : ∃ r, Easy.init base opts raw = .ok r := by
  have hl := (kept_least opts.encoding).parsePattern opts.features s f hf
  obtain ⟨g, sg, gg, gd, -⟩ := surrounded_spec hg hl
  unfold Easy.init
  rw [hd]
  dsimp only
  rw [ok_bind, hf, ok_bind, sg]
  dsimp only
  rw [ok_bind]
  split
  · rename_i hdet
    obtain ⟨dd, -⟩ := determine_det gg hdet
    have : ∃ x, Multi.compile scannerPolicy base (g.determine).1 = some x := by
      unfold Multi.compile canonize
      rw [if_pos dd.flag]
      exact ⟨_, rfl⟩
    obtain ⟨x, hx⟩ := this
    rw [hx]
    exact ⟨_, rfl⟩
  · exact ⟨_, rfl⟩

variable {ts : List Tok}

/-- `Regexp(pattern, options).Matches(text)`, for every pattern of the grammar: true iff a word of the language of the pattern occurs
in the text; `^` matches only before it and `$` only behind it. The answer is the same whether a `Scanner` could be built or a
`SlowScanner` had to be taken. -/
theorem C45_matches (hisa : Platform isa) (ho : opts.added.Nodup) (hd : opts.encoding.decode raw = some (some s))
    (hp : Pattern (easyOptions opts ho).flavor s ts) {t : Alt} (ht : t.spell = ts) (ok : t.Ok) (hr : Easy.init base opts raw = .ok r)
    (room : Room base opts raw) (mem : Mem) {b e : Nat} (hbe : b ≤ e) :
    ∃ a, r.Matches isa mem b e = some a ∧ (a = true ↔ Occurs (t.den (codec opts.encoding)) (bytesAt mem b (e - b))) := by
  rcases C43_pattern_language hp ht ok opts.encoding with ⟨f, hf, hg, hL⟩ | ⟨-, hx⟩
  · have hf' : parsePattern opts.features opts.encoding s = .ok f := hf
    have := matches_automaton hisa hd hf' hg hr room mem hbe
    rw [hL] at this
    exact this
  · exfalso
    have hx' : parsePattern opts.features opts.encoding s = .throws := hx
    unfold Easy.init at hr
    rw [hd] at hr
    dsimp only at hr
    rw [ok_bind, hx'] at hr
    cases hr

/-- Such a pattern is always accepted by the constructor unless it contains `~`, `&` or `[^...]`. -/
theorem C45_constructs (base : Nat) (ho : opts.added.Nodup) (hd : opts.encoding.decode raw = some (some s))
    (hp : Pattern (easyOptions opts ho).flavor s ts) {t : Alt} (ht : t.spell = ts) (ok : t.Ok) (pl : t.plain = true) :
    ∃ r, Easy.init base opts raw = .ok r := by
  obtain ⟨f, hf, hg, -⟩ := C43_plain_pattern_language hp ht ok pl opts.encoding
  exact init_ok base hd hf hg

/-- A malformed pattern makes the constructor throw: bytes outside of the encoding, or tokens outside of the grammar. -/
theorem C45_rejects_encoding (base : Nat) (hd : opts.encoding.decode raw = some none) : Easy.init base opts raw = .throws := by
  unfold Easy.init
  rw [hd]
  rfl

theorem C45_rejects_syntax (base : Nat) (ho : opts.added.Nodup) (hd : opts.encoding.decode raw = some (some s))
    (hp : Pattern (easyOptions opts ho).flavor s ts) (hc : OrderedCounts ts) (hn : ∀ t : Alt, t.spell ≠ ts) : Easy.init base opts raw = .throws := by
  have hx : parsePattern opts.features opts.encoding s = .throws := C43_syntax_error hp hc hn opts.encoding
  unfold Easy.init
  rw [hd]
  dsimp only
  rw [ok_bind, hx]
  rfl

/-- `BeginsWithCircumflex` ends for every automaton. -/
theorem C45_circumflex_ends {f : Fsm} (h : f.WF) : (beginsWithCircumflex f).isSome = true := by
  obtain ⟨b, hb, -⟩ := beginsWithCircumflex_spec h
  rw [hb]; rfl

/-! ### Texts as patterns -/

theorem bytes_inside {text u v x : List Nat} (hv : ∀ c ∈ v, c < 256) (hne : v ≠ []) (he : BeginMark :: text ++ [EndMark] = u ++ v ++ x) :
    ∃ u' x', text = u' ++ v ++ x' := by
  cases u with
  | nil =>
    exfalso
    cases v with
    | nil => exact hne rfl
    | cons c v =>
      have h1 : BeginMark = c := (List.cons.inj he).1
      have := hv c (by simp)
      rw [← h1] at this
      exact absurd this (by decide)
  | cons d u =>
    have h1 : text ++ [EndMark] = u ++ v ++ x := (List.cons.inj he).2
    cases x using List.reverseRecOn with
    | nil =>
      exfalso
      rw [List.append_nil] at h1
      have h2 : EndMark ∈ v := by
        have h3 : (u ++ v).getLast (by simp [hne]) = EndMark := by
          have : (text ++ [EndMark]).getLast (by simp) = EndMark := by simp
          simpa only [h1] using this
        rw [List.getLast_append_of_right_ne_nil _ _ hne] at h3
        rw [← h3]
        exact List.getLast_mem hne
      exact absurd (hv _ h2) (by decide)
    | append_singleton x y _ =>
      rw [← List.append_assoc] at h1
      exact ⟨u, x, (List.append_inj' h1 rfl).1⟩

/-- Occurrences of words made of bytes. -/
theorem occurs_bytes {L : Language Nat} {text : List Nat} (hL : ∀ w ∈ L, ∀ c ∈ w, c < 256) :
    Occurs L text ↔ ∃ w ∈ L, w <:+: text := by
  constructor
  · rintro ⟨u, v, x, he, hv⟩
    refine ⟨v, hv, ?_⟩
    by_cases hne : v = []
    · rw [hne]; exact List.nil_infix
    · obtain ⟨u', x', rfl⟩ := bytes_inside (hL v hv) hne he
      exact ⟨u', x', rfl⟩
  · rintro ⟨w, hw, u, x, rfl⟩
    exact ⟨BeginMark :: u, w, x ++ [EndMark], by simp, hw⟩

theorem utf8_bytes_easy {c : Nat} (h : c < 0x200000) : ∀ b ∈ Spec.utf8 c, b < 256 := by
  intro b hb
  unfold Spec.utf8 at hb
  split at hb
  · simp at hb; omega
  · split at hb
    · simp at hb; omega
    · split at hb
      · simp at hb; omega
      · simp at hb; omega

theorem enc_bytes (e : Encoding) {c : Nat} (h : c < 0x200000) : ∀ b ∈ (codec e).enc c, b < 256 := by
  cases e with
  | utf8 => exact utf8_bytes_easy h
  | latin1 =>
    intro b hb
    have hb : b ∈ (if c < 0x80 then [c] else []) := hb
    split at hb
    · simp at hb; omega
    · cases hb

/-- The tree of a begin of a sequence followed by character sets. -/
def catFrom (c0 : Cat) (ks : List (Finset Nat)) : Cat := ks.foldl (fun c k => .snoc c (.one (.letters k false))) c0

theorem catFrom_snoc (c0 : Cat) (ks : List (Finset Nat)) (k : Finset Nat) : catFrom c0 (ks ++ [k]) = .snoc (catFrom c0 ks) (.one (.letters k false)) := by
  simp [catFrom]

theorem catFrom_spec (c0 : Cat) (ks : List (Finset Nat)) : (catFrom c0 ks).spell = c0.spell ++ ks.map (fun k => .letters k false) ∧
    (catFrom c0 ks).plain = c0.plain ∧
    ((∀ k ∈ ks, ∀ c ∈ k, c < 0x200000) → c0.Ok → (catFrom c0 ks).Ok) ∧
    ∀ (k : Codec), (catFrom c0 ks).den k = c0.den k * (catOf ks).den k := by
  induction ks using List.reverseRecOn with
  | nil =>
    refine ⟨by simp [catFrom], rfl, fun _ h => h, fun k => ?_⟩
    change c0.den k = c0.den k * (1 : Language Nat)
    rw [mul_one]
  | append_singleton ks k ih =>
    obtain ⟨h1, h2, h3, h4⟩ := ih
    rw [catFrom_snoc, catOf_snoc]
    refine ⟨?_, ?_, fun h h0 => ?_, fun cd => ?_⟩
    · simp [Cat.spell, Iter.spell, Term.spell, h1]
    · simp [Cat.plain, Iter.plain, Term.plain, h2]
    · exact ⟨h3 (fun k' hk' => h k' (by simp [hk'])) h0, h k (by simp), rfl⟩
    · rw [Cat.den, Cat.den, h4, mul_assoc]

/-- The sequences of characters that a text stands for, given the options: its characters may be replaced by their variants. -/
def readings (o : Options) (k : Codec) (s : List Nat) : Language Nat :=
  {w | ∃ s', List.Forall₂ (fun c' c => c' ∈ o.variants c) s' s ∧ (∀ c ∈ s', k.enc c ≠ []) ∧ w = s'.flatMap k.enc}

theorem readings_bytes {o : Options} {s : List Nat} (h : ∀ c ∈ s, Usable c) (hm : Feature.caseInsensitive ∈ o.list → 0xB5 ∉ s) (e : Encoding) :
    ∀ w ∈ readings o (codec e) s, ∀ b ∈ w, b < 256 := by
  rintro w ⟨s', h1, -, rfl⟩ b hb
  obtain ⟨c', hc', hb⟩ := List.mem_flatMap.1 hb
  obtain ⟨i, hi, rfl⟩ := List.getElem_of_mem hc'
  have hl := h1.length_eq
  have := (List.forall₂_iff_get.1 h1).2 i hi (by omega)
  simp only [List.get_eq_getElem] at this
  have hmem : s[i]'(by omega) ∈ s := List.getElem_mem _
  exact enc_bytes e (variants_lt (h _ hmem).2 (fun hx hci => hm hci (hx ▸ hmem)) _ this) b hb

/-- A quoted text as a pattern: it is found wherever one of its readings occurs in the text as a run of bytes. -/
theorem C45_text (hisa : Platform isa) (ho : opts.added.Nodup) (h : ∀ c ∈ s, Usable c) (hm : Feature.caseInsensitive ∈ opts.added → 0xB5 ∉ s)
    (hd : opts.encoding.decode raw = some (some (quote (easyOptions opts ho).flavor s))) (hr : Easy.init base opts raw = .ok r)
    (room : Room base opts raw) (mem : Mem) {b e : Nat} (hbe : b ≤ e) :
    ∃ a, r.Matches isa mem b e = some a ∧
      (a = true ↔ ∃ w ∈ readings (easyOptions opts ho) (codec opts.encoding) s, w <:+: bytesAt mem b (e - b)) := by
  obtain ⟨f, hf, hg, hL⟩ := C44_text (o := easyOptions opts ho) h hm opts.encoding
  obtain ⟨a, h1, h2⟩ := matches_automaton hisa hd hf hg hr room mem hbe
  have hL' : f.Lang = readings (easyOptions opts ho) (codec opts.encoding) s := by ext w; exact hL w
  rw [hL', occurs_bytes (readings_bytes h hm _)] at h2
  exact ⟨a, h1, h2⟩

theorem pattern_append {fl : Flavor} {s s' : List Nat} {ts ts' : List Tok} (h : Pattern fl s ts) (h' : Pattern fl s' ts') :
    Pattern fl (s ++ s') (ts ++ ts') := by
  induction h with
  | nil => exact h'
  | cons w _ ih => rw [List.append_assoc]; exact .cons w ih

/-- `^text$`: it matches a text iff the text is one of the readings. -/
theorem C45_anchored_text (hisa : Platform isa) (ho : opts.added.Nodup) (h : ∀ c ∈ s, Usable c) (hm : Feature.caseInsensitive ∈ opts.added → 0xB5 ∉ s)
    (hd : opts.encoding.decode raw = some (some (94 :: (quote (easyOptions opts ho).flavor s ++ [36])))) (hr : Easy.init base opts raw = .ok r)
    (room : Room base opts raw) (mem : Mem) {b e : Nat} (hbe : b ≤ e) :
    ∃ a, r.Matches isa mem b e = some a ∧
      (a = true ↔ bytesAt mem b (e - b) ∈ readings (easyOptions opts ho) (codec opts.encoding) s) := by
  set o := easyOptions opts ho with hodef
  have hp : Pattern o.flavor (94 :: (quote o.flavor s ++ [36])) (.bol :: (s.map (fun c => .letters (o.variants c) false) ++ [.eol])) :=
    .cons (t := [94]) .bol (pattern_append (quote_pattern o.flavor h) (.cons (t := [36]) .eol .nil))
  obtain ⟨c1, c2, c3, c4⟩ := catFrom_spec (.snoc .nil (.one .bol)) (s.map o.variants)
  obtain ⟨d1, d2, d3, d4⟩ := catOf_spec (s.map o.variants)
  have hlt : ∀ k ∈ s.map o.variants, ∀ c ∈ k, c < 0x200000 := by
    intro k hk c hc
    obtain ⟨x, hx, rfl⟩ := List.mem_map.1 hk
    exact variants_lt (h x hx).2 (fun hx' hci => hm hci (hx' ▸ hx)) c hc
  obtain ⟨a, h1, h2⟩ := C45_matches (t := .one (.one (.one (.snoc (catFrom (.snoc .nil (.one .bol)) (s.map o.variants)) (.one .eol))))) hisa ho hd hp
    (by simp [Alt.spell, Conj.spell, Neg.spell, Cat.spell, Iter.spell, Term.spell, c1])
    ⟨c3 hlt ⟨trivial, trivial, rfl⟩, trivial, rfl⟩ hr room mem hbe
  refine ⟨a, h1, h2.trans ?_⟩
  have hden : (Alt.one (.one (.one (.snoc (catFrom (.snoc .nil (.one .bol)) (s.map o.variants)) (.one .eol))))).den (codec opts.encoding) =
      {w | ∃ v ∈ readings o (codec opts.encoding) s, w = BeginMark :: v ++ [EndMark]} := by
    ext w
    rw [Alt.den, Conj.den, Neg.den, Cat.den, c4, Cat.den, Iter.den, Term.den, Iter.den, Term.den, Cat.den, one_mul, Language.mem_mul]
    constructor
    · rintro ⟨x, hx, y, hy, rfl⟩
      obtain ⟨x1, hx1, x2, hx2, rfl⟩ := Language.mem_mul.1 hx
      obtain ⟨s', e1, e2⟩ := (d4 _ _).1 hx2
      refine ⟨x2, ⟨s', by rw [List.forall₂_map_right_iff] at e1; exact e1, e2⟩, ?_⟩
      have hx1 : x1 = [258] := hx1
      have hy : y = [259] := hy
      rw [hx1, hy]; rfl
    · rintro ⟨v, ⟨s', e1, e2⟩, rfl⟩
      refine ⟨258 :: v, Language.mem_mul.2 ⟨[258], rfl, v, (d4 _ _).2 ⟨s', by rw [List.forall₂_map_right_iff]; exact e1, e2⟩, rfl⟩, [259], rfl, rfl⟩
  rw [hden]
  constructor
  · rintro ⟨u, v, x, he, v', hv', rfl⟩
    have hu : u = [] := begin_first (bytes_lt mem b (e - b)) (v := v' ++ [EndMark] ++ x) (by rw [he]; simp [BeginMark])
    subst hu
    have h3 : bytesAt mem b (e - b) ++ [EndMark] = v' ++ EndMark :: x := by
      have h4 : bytesAt mem b (e - b) ++ [EndMark] = v' ++ [EndMark] ++ x := (List.cons.inj he).2
      rw [h4]; simp
    have hx : x = [] := by
      cases x using List.reverseRecOn with
      | nil => rfl
      | append_singleton x y _ =>
        exfalso
        have : bytesAt mem b (e - b) = v' ++ EndMark :: x := by
          rw [show v' ++ EndMark :: (x ++ [y]) = (v' ++ EndMark :: x) ++ [y] by simp] at h3
          exact (List.append_inj' h3 rfl).1
        have hm : EndMark ∈ bytesAt mem b (e - b) := by rw [this]; simp
        exact absurd (bytes_lt mem b (e - b) _ hm) (by decide)
    subst hx
    rw [(List.append_inj' h3 rfl).1]
    exact hv'
  · intro hv
    exact ⟨[], _, [], by simp, _, hv, rfl⟩

/-- **Options.** Of the encodings given the last one is used, and Latin-1 if there are none; the syntax is that of the features given. -/
theorem C45_options (l : Opts) (h : l.added.Nodup) :
    ((∀ o ∈ l, o ≠ .utf8 ∧ o ≠ .latin1) → l.encoding = .latin1) ∧
    (∀ u v, l = u ++ .utf8 :: v → (∀ o ∈ v, o ≠ .utf8 ∧ o ≠ .latin1) → l.encoding = .utf8) ∧
    (∀ u v, l = u ++ .latin1 :: v → (∀ o ∈ v, o ≠ .utf8 ∧ o ≠ .latin1) → l.encoding = .latin1) ∧
    (Feature.caseInsensitive ∈ (easyOptions l h).list ↔ .i ∈ l) ∧ (Feature.andNot ∈ (easyOptions l h).list ↔ .andNot ∈ l) := by
  have keep : ∀ (v : Opts) (e : Encoding), (∀ o ∈ v, o ≠ .utf8 ∧ o ≠ .latin1) →
      v.foldl (fun e o => match o with | .utf8 => .utf8 | .latin1 => .latin1 | _ => e) e = e := by
    intro v
    induction v with
    | nil => intro e _; rfl
    | cons o v ih =>
      intro e hv
      rw [List.foldl_cons, ih _ fun x hx => hv x (List.mem_cons_of_mem _ hx)]
      have := hv o List.mem_cons_self
      cases o with
      | utf8 => exact absurd rfl this.1
      | latin1 => exact absurd rfl this.2
      | i => rfl
      | andNot => rfl
  refine ⟨fun hl => keep l _ hl, ?_, ?_, ?_, ?_⟩
  · rintro u v rfl hv
    unfold Opts.encoding
    rw [List.foldl_append, List.foldl_cons]
    exact keep v _ hv
  · rintro u v rfl hv
    unfold Opts.encoding
    rw [List.foldl_append, List.foldl_cons]
    exact keep v _ hv
  · show Feature.caseInsensitive ∈ l.added ↔ _
    unfold Opts.added
    rw [List.mem_filterMap]
    constructor
    · rintro ⟨o, ho, h⟩
      cases o <;> simp at h
      exact ho
    · intro h; exact ⟨.i, h, rfl⟩
  · show Feature.andNot ∈ l.added ↔ _
    unfold Opts.added
    rw [List.mem_filterMap]
    constructor
    · rintro ⟨o, ho, h⟩
      cases o <;> simp at h
      exact ho
    · intro h; exact ⟨.andNot, h, rfl⟩

/-! ### The hypotheses are met -/

/-- `Regexp("a.b", UTF8 | I)`, with the dot quoted. -/
def easySample : Opts := [.utf8, .i]

theorem easySample_nodup : easySample.added.Nodup := by decide

theorem easySample_room : Room 0x1000 easySample [97, 92, 46, 98] := by
  refine ⟨by decide, by decide, fun s f hs hf => ?_⟩
  have h1 : easySample.encoding.decode [97, 92, 46, 98] = some (some [97, 92, 46, 98]) := by decide +kernel
  rw [h1] at hs
  cases hs
  have h2 : (match parsePattern easySample.features easySample.encoding [97, 92, 46, 98] with
    | .ok f => decide (f.size + 2 ≤ 100) | _ => true) = true := by decide +kernel
  rw [hf] at h2
  have := of_decide_eq_true h2
  omega

/-- The constructor accepts the pattern; the expression then finds `a.b`, `A.b`, `a.B`, `A.B` and nothing else. -/
example (hisa : Platform isa) : ∃ r, Easy.init 0x1000 easySample [97, 92, 46, 98] = .ok r ∧
    ∀ (mem : Mem) {b e : Nat}, b ≤ e → ∃ a, r.Matches isa mem b e = some a ∧
      (a = true ↔ ∃ w ∈ readings (easyOptions easySample easySample_nodup) (codec easySample.encoding) [97, 46, 98],
        w <:+: bytesAt mem b (e - b)) := by
  have hd : easySample.encoding.decode [97, 92, 46, 98] = some (some (quote (easyOptions easySample easySample_nodup).flavor [97, 46, 98])) := by
    decide +kernel
  have hu : ∀ c ∈ [97, 46, 98], Usable c := by decide
  obtain ⟨f, hf, hg, -⟩ := C44_text (o := easyOptions easySample easySample_nodup) hu (fun _ => by decide) easySample.encoding
  obtain ⟨r, hr⟩ := init_ok 0x1000 hd hf hg
  exact ⟨r, hr, fun mem {b e} hbe => C45_text hisa easySample_nodup hu (fun _ => by decide) hd hr easySample_room mem hbe⟩

end Pire.Props
