import Verif.Proofs.Features
import Verif.Proofs.CasePairs
import Verif.Proofs.Parser
import Verif.Proofs.LexerTotal
import Verif.Proofs.ParserTotal
import Verif.Proofs.ParserPull

/-!
# C40-C44: from the text of a pattern to its automaton

`tokens`, `parse`, `evalAlt`, `parsePattern` are the model of the code (Model/Lexer, Model/Parser).  `Spec.Written` and
`Spec.Pattern` say how tokens are written, `Spec.Alt` and `spell` are the grammar, `den` is the language of a tree.
-/

namespace Pire.Props

open Pire.Spec Pire.Lex Pire.Parse Pire.Enc Pire.Unidata

/-- Optional features added to a lexer, each at most once, in any order. -/
structure Options where
  list : List Feature
  nodup : list.Nodup
  opt : ∀ f ∈ list, f = .andNot ∨ f = .caseInsensitive ∨ f = .glyphs

/-- The features of the lexer they are added to: `Lexer::AddFeature` for each. -/
def Options.features (o : Options) : List Feature := o.list.foldl (fun F f => addFeature f F) defaultFeatures

/-- The syntax they stand for. -/
def Options.flavor (o : Options) : Flavor :=
  Flavor.of toUpper toLower (decide (.andNot ∈ o.list)) (decide (.caseInsensitive ∈ o.list)) (decide (.glyphs ∈ o.list))

theorem Options.implements (o : Options) : Implements o.features o.flavor :=
  install_implements o.nodup fun f hf => by
    unfold Lex.optional
    rcases o.opt f hf with rfl | rfl | rfl <;> decide

/-- No options. -/
def noOptions : Options := ⟨[], .nil, fun _ h => by cases h⟩

theorem noOptions_flavor : noOptions.flavor = Flavor.default := by
  unfold Options.flavor noOptions Flavor.of Flavor.default
  simp

variable {o : Options} {e : Encoding} {s : List Nat} {ts : List Tok}

/-! ### C40 -/

/-- A pattern put together from pieces of text is read as the tokens these stand for, whatever the options. -/
theorem C40_tokens (h : Pattern o.flavor s ts) : tokens o.features (s.length + 1) s = .ok ts :=
  pattern_tokens o.implements h _ _ (by have := pattern_length h; omega) (.refl _)

/-- So a text can be put together in one way only, as far as its tokens are concerned. -/
theorem C40_unambiguous {ts' : List Tok} (h : Pattern o.flavor s ts) (h' : Pattern o.flavor s ts') : ts = ts' := by
  have := (C40_tokens h).symm.trans (C40_tokens h')
  injection this

/-- Quoting: a backslash before every special character. -/
def quote (fl : Flavor) (s : List Nat) : List Nat := s.flatMap fun c => if c ∈ fl.special then [92, c] else [c]

theorem quote_pattern (fl : Flavor) {s : List Nat} (h : ∀ c ∈ s, Usable c) :
    Pattern fl (quote fl s) (s.map fun c => .letters (fl.widen (fl.fold c)) false) := by
  induction s with
  | nil => exact .nil
  | cons c s ih =>
    have ih := ih fun x hx => h x (by simp [hx])
    rw [quote, List.flatMap_cons, List.map_cons]
    refine .cons ?_ ih
    split
    · rename_i hc
      exact .quoted (by unfold Flavor.quotable; exact List.mem_append_left _ hc)
    · rename_i hc
      exact .plain hc (h c (by simp))

/-- Every text of usable characters, quoted, is read as itself: one token per character. -/
theorem C40_quoted_text (h : ∀ c ∈ s, Usable c) :
    tokens o.features ((quote o.flavor s).length + 1) (quote o.flavor s) = .ok (s.map fun c => .letters (o.flavor.widen (o.flavor.fold c)) false) :=
  C40_tokens (quote_pattern _ h)

/-- A text without special characters needs no quoting. -/
theorem C40_plain_text (h : ∀ c ∈ s, Usable c ∧ c ∉ noOptions.flavor.special) :
    tokens defaultFeatures (s.length + 1) s = .ok (s.map fun c => .letters {c} false) := by
  have e : quote noOptions.flavor s = s := by
    unfold quote
    have : ∀ c ∈ s, (if c ∈ noOptions.flavor.special then [92, c] else [c]) = [c] := fun c hc => if_neg (h c hc).2
    rw [List.flatMap_congr this]
    simp
  have := C40_quoted_text (o := noOptions) fun c hc => (h c hc).1
  rw [e] at this
  refine this.trans ?_
  simp [noOptions_flavor, Flavor.default, Flavor.widen]

/-! ### C43 -/

/-- The grammar is unambiguous. -/
theorem C43_grammar_unambiguous {t t' : Alt} (h : t.spell = t'.spell) : t = t' := by
  have := ((parse_iff (ts := t.spell) (a := t)).2 rfl).symm.trans ((parse_iff (ts := t.spell) (a := t')).2 h.symm)
  injection this

/-- A pattern whose tokens a tree of the grammar spells yields an automaton for the language of the tree; it is rejected
only if it contains `~`, `&` or `[^...]` (the determinisation needed for them may exceed its limit). -/
theorem C43_pattern_language (h : Pattern o.flavor s ts) {t : Alt} (ht : t.spell = ts) (ok : t.Ok) (e : Encoding) :
    (∃ f, parsePattern o.features e s = .ok f ∧ f.Good ∧ f.Lang = t.den (codec e)) ∨
    (t.plain = false ∧ parsePattern o.features e s = .throws) := by
  have e1 : parsePattern o.features e s = evalAlt e t := parsePattern_tree (C40_tokens h) ((parse_iff (ts := ts) (a := t)).2 ht)
  rw [e1]
  have := evalAlt_sat e t ok
  cases hr : evalAlt e t with
  | ok f => rw [hr] at this; exact .inl ⟨f, rfl, this.1, this.2.1⟩
  | throws => rw [hr] at this; exact .inr ⟨this, rfl⟩
  | bad => rw [hr] at this; exact this.elim

/-- Patterns without `~`, `&` and `[^...]` are never rejected. -/
theorem C43_plain_pattern_language (h : Pattern o.flavor s ts) {t : Alt} (ht : t.spell = ts) (ok : t.Ok) (hp : t.plain = true) (e : Encoding) :
    ∃ f, parsePattern o.features e s = .ok f ∧ f.Good ∧ f.Lang = t.den (codec e) := by
  rcases C43_pattern_language h ht ok e with h | ⟨h, -⟩
  · exact h
  · rw [hp] at h; cases h

theorem no_tree (hn : ∀ t : Alt, t.spell ≠ ts) : parse ts = none := by
  cases hp : parse ts with
  | none => rfl
  | some t => exact absurd ((parse_iff (ts := ts) (a := t)).1 hp) (hn t)

/-- Tokens that no tree of the grammar spells are rejected: unbalanced parentheses, a count with nothing to repeat, ... (With reversed bounds in a count
before the error, the parser does not come to it: `C43_syntax_error_unnoticed`.) -/
theorem C43_syntax_error (h : Pattern o.flavor s ts) (ho : OrderedCounts ts) (hn : ∀ t : Alt, t.spell ≠ ts) (e : Encoding) :
    parsePattern o.features e s = .throws :=
  parsePattern_syntax (C40_tokens h) (no_tree hn) ho

/-- In any case no automaton is made of them. -/
theorem C43_never_accepted (h : Pattern o.flavor s ts) (hn : ∀ t : Alt, t.spell ≠ ts) (e : Encoding) (f : Fsm) : parsePattern o.features e s ≠ .ok f :=
  parsePattern_none (C40_tokens h) (no_tree hn) f

/-- Unbalanced parentheses. -/
theorem C43_unbalanced (h : Pattern o.flavor s ts) (ho : OrderedCounts ts) (hn : ts.count .opn ≠ ts.count .cls) (e : Encoding) :
    parsePattern o.features e s = .throws :=
  C43_syntax_error h ho (fun t ht => hn (by rw [← ht]; exact Alt.balanced t)) e

/-! ### Texts -/

/-- The tree of a sequence of character sets. -/
def catOf (ks : List (Finset Nat)) : Cat := ks.foldl (fun c k => .snoc c (.one (.letters k false))) .nil

theorem catOf_snoc (ks : List (Finset Nat)) (k : Finset Nat) : catOf (ks ++ [k]) = .snoc (catOf ks) (.one (.letters k false)) := by
  simp [catOf]

theorem catOf_spec (ks : List (Finset Nat)) : (catOf ks).spell = ks.map (fun k => .letters k false) ∧ (catOf ks).plain = true ∧
    ((∀ k ∈ ks, ∀ c ∈ k, c < 0x200000) → (catOf ks).Ok) ∧
    ∀ (k : Codec) w, w ∈ (catOf ks).den k ↔ ∃ s, List.Forall₂ (fun c k => c ∈ k) s ks ∧ (∀ c ∈ s, k.enc c ≠ []) ∧ w = s.flatMap k.enc := by
  induction ks using List.reverseRecOn with
  | nil =>
    refine ⟨rfl, rfl, fun _ => trivial, fun k w => ?_⟩
    change w ∈ (1 : Language Nat) ↔ _
    rw [Language.mem_one]
    constructor
    · rintro rfl; exact ⟨[], .nil, (fun _ h => by cases h), rfl⟩
    · rintro ⟨s, h, -, rfl⟩; cases h; rfl
  | append_singleton ks k ih =>
    obtain ⟨h1, h2, h3, h4⟩ := ih
    rw [catOf_snoc]
    refine ⟨?_, ?_, fun h => ?_, fun cd w => ?_⟩
    · simp [Cat.spell, Iter.spell, Term.spell, h1]
    · simp [Cat.plain, Iter.plain, Term.plain, h2]
    · refine ⟨h3 fun k' hk' => h k' (by simp [hk']), ?_, rfl⟩
      exact h k (by simp)
    · rw [Cat.den, Iter.den, Term.den, Language.mem_mul]
      constructor
      · rintro ⟨u, hu, v, ⟨c, hc, rfl, hne⟩, rfl⟩
        obtain ⟨s, a1, a2, rfl⟩ := (h4 cd u).1 hu
        refine ⟨s ++ [c], List.rel_append a1 (.cons hc .nil), ?_, by simp⟩
        intro x hx
        rcases List.mem_append.1 hx with hx | hx
        · exact a2 x hx
        · rw [List.mem_singleton.1 hx]; exact hne
      · rintro ⟨s, a1, a2, rfl⟩
        obtain ⟨s1, s2, b1, b2, rfl⟩ : ∃ s1 s2, List.Forall₂ (fun c k => c ∈ k) s1 ks ∧ List.Forall₂ (fun c k => c ∈ k) s2 [k] ∧ s = s1 ++ s2 :=
          ⟨_, _, List.forall₂_take_append _ _ _ a1, List.forall₂_drop_append _ _ _ a1, (List.take_append_drop _ _).symm⟩
        cases b2 with
        | cons hc b2 =>
          cases b2
          rename_i c
          refine ⟨s1.flatMap cd.enc, (h4 cd _).2 ⟨s1, b1, fun x hx => a2 x (by simp [hx]), rfl⟩, cd.enc c, ⟨c, hc, rfl, a2 c (by simp)⟩, by simp⟩

/-- The characters that match a literal `c`, given the options. -/
def Options.variants (o : Options) (c : Nat) : Finset Nat := o.flavor.widen (o.flavor.fold c)

theorem variants_lt {c : Nat} (h : c < 0x200000) (hm : c = 0xB5 → Feature.caseInsensitive ∉ o.list) : ∀ x ∈ o.variants c, x < 0x200000 := by
  intro x hx
  obtain ⟨y, hy, hx⟩ := Finset.mem_biUnion.1 hx
  have : y < 0x200000 := by
    unfold Options.flavor Flavor.of at hy
    dsimp only at hy
    split at hy
    · rename_i hf
      have hf : Feature.caseInsensitive ∈ o.list := by simpa using hf
      simp only [Finset.mem_insert, Finset.mem_singleton] at hy
      by_cases hc : c < 0x10000
      · have := case_all hc
        rcases hy with rfl | rfl
        · have := this.1 (fun h => hm h hf); omega
        · omega
      · have := case_astral (c := c) (by omega) (by omega)
        rw [this.1, this.2] at hy
        omega
    · rw [Finset.mem_singleton.1 hy]; exact h
  rcases look_mem hx with rfl | h
  · exact this
  · omega

/-- A text, with special characters quoted, matches itself up to variants of its characters, and nothing else. (µ has no
usable upper case, see `C44_micro`.) -/
theorem C44_text (h : ∀ c ∈ s, Usable c) (hm : Feature.caseInsensitive ∈ o.list → 0xB5 ∉ s) (e : Encoding) :
    ∃ f, parsePattern o.features e (quote o.flavor s) = .ok f ∧ f.Good ∧
      ∀ w, w ∈ f.Lang ↔ ∃ s', List.Forall₂ (fun c' c => c' ∈ o.variants c) s' s ∧ (∀ c ∈ s', (codec e).enc c ≠ []) ∧ w = s'.flatMap (codec e).enc := by
  have hs := catOf_spec (s.map o.variants)
  obtain ⟨f, h1, h2, h3⟩ := C43_plain_pattern_language (quote_pattern o.flavor h) (t := .one (.one (.one (catOf (s.map o.variants)))))
    (by rw [Alt.spell, Conj.spell, Neg.spell, hs.1, List.map_map]; rfl)
    (by
      refine hs.2.2.1 fun k hk c hc => ?_
      obtain ⟨x, hx, rfl⟩ := List.mem_map.1 hk
      exact variants_lt (h x hx).2 (fun hx' hci => hm hci (hx' ▸ hx)) c hc) hs.2.1 e
  refine ⟨f, h1, h2, fun w => ?_⟩
  rw [h3]
  refine (hs.2.2.2 (codec e) w).trans ?_
  constructor
  · rintro ⟨s', a1, a2⟩
    exact ⟨s', by rw [List.forall₂_map_right_iff] at a1; exact a1, a2⟩
  · rintro ⟨s', a1, a2⟩
    exact ⟨s', by rw [List.forall₂_map_right_iff]; exact a1, a2⟩

theorem forall₂_eq {α : Type} {R : α → α → Prop} (hR : ∀ a b, R a b ↔ a = b) : ∀ {u v : List α}, List.Forall₂ R u v → u = v := by
  intro u v h
  induction h with
  | nil => rfl
  | cons h _ ih => rw [(hR _ _).1 h, ih]

/-- Without options a quoted text matches exactly itself; if it contains a character without encoding, it matches nothing. -/
theorem C40_text_language (h : ∀ c ∈ s, Usable c) (e : Encoding) :
    ∃ f, parsePattern defaultFeatures e (quote Flavor.default s) = .ok f ∧ f.Good ∧
      ∀ w, w ∈ f.Lang ↔ (∀ c ∈ s, (codec e).enc c ≠ []) ∧ w = s.flatMap (codec e).enc := by
  have hv : ∀ a b, a ∈ noOptions.variants b ↔ a = b := by
    intro a b
    simp [Options.variants, noOptions_flavor, Flavor.default, Flavor.widen]
  obtain ⟨f, h1, h2, h3⟩ := C44_text (o := noOptions) h (fun h => by cases h) e
  rw [noOptions_flavor] at h1
  refine ⟨f, h1, h2, fun w => (h3 w).trans ⟨?_, fun h => ⟨s, ?_, h⟩⟩⟩
  · rintro ⟨s', a, b⟩
    rw [← forall₂_eq hv a]; exact b
  · exact List.forall₂_same.2 fun c _ => (hv c c).2 rfl

/-! ### C44 -/

/-- The options: case insensitivity only. -/
def caseOption : Options := ⟨[.caseInsensitive], by decide, by simp⟩

/-- The options: lookalikes only. -/
def glyphsOption : Options := ⟨[.glyphs], by decide, by simp⟩

theorem caseOption_variants (c : Nat) : caseOption.variants c = {toUpper c, toLower c} := by
  simp [Options.variants, caseOption, Options.flavor, Flavor.of, Flavor.widen]

/-- ASCII: the two cases of a letter, other characters stand for themselves. -/
theorem C44_ascii {c : Nat} (h : c < 128) : caseOption.variants c =
    if 65 ≤ c ∧ c ≤ 90 then {c, c + 32} else if 97 ≤ c ∧ c ≤ 122 then {c - 32, c} else {c} := by
  have := (latin_spec (c := c) (by omega)).2 h
  rw [caseOption_variants, this.2.1, this.2.2]
  by_cases a : 65 ≤ c ∧ c ≤ 90
  · rw [if_pos a, if_pos a, if_neg (by omega)]
  · rw [if_neg a, if_neg a]
    split <;> simp

/-- Cyrillic (U+0400 - U+045F). -/
theorem C44_cyrillic {c : Nat} (h1 : 0x400 ≤ c) (h2 : c < 0x460) : caseOption.variants c =
    if c < 0x410 then {c, c + 80} else if c < 0x430 then {c, c + 32} else if c < 0x450 then {c - 32, c} else {c - 80, c} := by
  have := cyrillic_spec h1 h2
  rw [caseOption_variants, this.1, this.2]
  by_cases a : c < 0x410
  · rw [if_pos (by omega), if_pos a, if_pos a]
  · rw [if_neg a, if_neg a]
    by_cases b : c < 0x430
    · rw [if_pos b, if_pos b, if_pos b]
    · rw [if_neg b, if_neg b, if_neg b]
      split <;> rfl

/-- The accented letters of Latin-1. -/
theorem C44_latin1 {c : Nat} (h1 : 0xC0 ≤ c) (h2 : c < 0xFF) (hx : c ≠ 0xD7) (hd : c ≠ 0xF7) (hs : c ≠ 0xDF) : caseOption.variants c =
    if c < 0xE0 then {c, c + 32} else {c - 32, c} := by
  have := latin1_spec h1 h2 hx hd hs
  rw [caseOption_variants, this.1, this.2]
  split <;> rfl

/-- Every character matches itself, except the four titlecase letters `ǅ`, `ǈ`, `ǋ`, `ǲ`. -/
theorem C44_reflexive {c : Nat} (h : c < 0x200000) (ht : c ∉ [0x1C5, 0x1C8, 0x1CB, 0x1F2]) : c ∈ caseOption.variants c := by
  rw [caseOption_variants]
  simp only [Finset.mem_insert, Finset.mem_singleton]
  by_cases hc : c < 0x10000
  · refine (case_spec hc).2.2 ?_
    simp only [List.mem_cons, List.not_mem_nil, or_false, not_or] at ht
    simp [isTitle, ht]
  · exact .inl (case_astral (by omega) (by omega)).2.symm

/-- A character and its variants have the same variants, so it does not matter in which case a pattern is written; fifteen
letters that share one case with another letter are exceptions. -/
theorem C44_symmetric {c x : Nat} (h : c < 0x200000) (ho : c ∉ oddCase) (hx : x ∈ caseOption.variants c) :
    caseOption.variants x = caseOption.variants c := by
  rw [caseOption_variants] at hx
  simp only [Finset.mem_insert, Finset.mem_singleton] at hx
  rw [caseOption_variants, caseOption_variants]
  by_cases hc : c < 0x10000
  · obtain ⟨h1, h2, h3, h4⟩ := case_pair hc ho
    rcases hx with rfl | rfl
    · rw [h3, h4]
    · rw [h1, h2]
  · have := case_astral (c := c) (by omega) (by omega)
    rw [this.1, this.2] at hx
    rcases hx with rfl | rfl <;> rfl

/-- The exceptions are real: `ǅ` does not match itself, ... -/
theorem C44_titlecase : 0x1C5 ∉ caseOption.variants 0x1C5 := by
  rw [caseOption_variants]
  decide +kernel

/-- ... and µ has an upper case that is no character at all. -/
theorem C44_micro : caseOption.variants 0xB5 = {0xFFFFFF9C, 0xB5} := by
  rw [caseOption_variants]
  have h1 : toUpper 0xB5 = 0xFFFFFF9C := by decide +kernel
  have h2 : toLower 0xB5 = 0xB5 := by decide +kernel
  rw [h1, h2]

/-- Options are independent of the order in which they are given. -/
theorem C44_order {o o' : Options} (h : ∀ f, f ∈ o.list ↔ f ∈ o'.list) (hp : Pattern o.flavor s ts) :
    tokens o.features (s.length + 1) s = tokens o'.features (s.length + 1) s := by
  have e : o.flavor = o'.flavor := by
    unfold Options.flavor
    simp only [h]
  rw [C40_tokens hp, C40_tokens (o := o') (by rw [← e]; exact hp)]

/-- With the lookalikes option a character stands for the letters of both alphabets that look like it. -/
theorem C44_lookalikes (c x : Nat) : x ∈ glyphsOption.variants c ↔ x = c ∨ ∃ g ∈ lookalikes, c ∈ g ∧ x ∈ g := by
  simp [Options.variants, glyphsOption, Options.flavor, Flavor.of, Flavor.widen, and_assoc]

/-! ### Rejected texts (C40) -/

theorem error_rejected (h : Pattern o.flavor s ts) (ho : OrderedCounts ts) {rest : List Nat} (hr : Tame rest) (he : lex o.features rest = .throws)
    (e : Encoding) : parsePattern o.features e (s ++ rest) = .throws := by
  have hl : ts.length < (s ++ rest).length + 1 := by have := pattern_length h; simp; omega
  exact parsePattern_error (error_after o.implements h hr he hl) (by rw [read_before_error o.implements h hr he hl]; exact ho)

/-- A bracket that is never closed, after anything. -/
theorem C40_rejects_open_bracket (h : Pattern o.flavor s ts) (ho : OrderedCounts ts) {t : List Nat} (hc : Clean (91 :: t)) (hno : 93 ∉ t) (e : Encoding) :
    parsePattern o.features e (s ++ 91 :: t) = .throws :=
  error_rejected h ho (.plain (by omega) (by decide)) (lex_open_bracket o.implements (clean_tidy hc) fun c hm h93 => by
    have := (hc.1 c (by simp [hm])).1
    have : c = 93 := by omega
    exact hno (this ▸ hm)) e

/-- An opening brace that no digit follows, after anything. -/
theorem C40_rejects_count (h : Pattern o.flavor s ts) (ho : OrderedCounts ts) {c : Nat} {t : List Nat} (hc : c < 0x660) (hd : ¬ (48 ≤ c ∧ c ≤ 57)) (hb : c ≠ 92) (e : Encoding) :
    parsePattern o.features e (s ++ 123 :: c :: t) = .throws :=
  error_rejected h ho (.plain (by omega) (by decide)) (lex_bad_count o.implements fun x s1 hg => by
    rw [getChar_plain hb] at hg
    cases hg
    have := (digits_low hc).1
    cases hx : isDigit c with
    | false => rfl
    | true => exact absurd (this.1 hx) hd) e

/-- A backslash before a character that is neither special nor the name of a class nor `x`. -/
theorem C40_rejects_escape (h : Pattern o.flavor s ts) (ho : OrderedCounts ts) {c : Nat} (hc : c < 128) (h0 : c ≠ 0) (hx : c ≠ 120) (h1 : charClass c = none)
    (h2 : charClass (c + 32) = none) (hq : c ∉ o.flavor.quotable) (t : List Nat) (e : Encoding) :
    parsePattern o.features e (s ++ 92 :: c :: t) = .throws :=
  error_rejected h ho (.quoted (by omega)) (lex_bad_escape o.implements hc h0 hx h1 h2 hq t) e

/-- `\x` before something that is neither a hexadecimal digit nor a brace. -/
theorem C40_rejects_code (h : Pattern o.flavor s ts) (ho : OrderedCounts ts) {c : Nat} (hc : ∀ v, ¬ HexDigit c v) (hb : c ≠ 123) (hb' : c ≠ 92) (t : List Nat) (e : Encoding) :
    parsePattern o.features e (s ++ 92 :: 120 :: c :: t) = .throws :=
  error_rejected h ho (.quoted (by omega)) (lex_bad_code o.implements (by simpa using hb) fun x s1 hg => by
    rw [getChar_plain hb'] at hg
    cases hg
    cases hx : isHexDigit c with
    | false => rfl
    | true =>
      exfalso
      simp only [isHexDigit, Bool.or_eq_true, decide_eq_true_eq] at hx
      rcases hx with (hx | hx) | hx
      · exact hc (c - 48) (by have := HexDigit.digit (c - 48) (by omega); rwa [show 48 + (c - 48) = c by omega] at this)
      · exact hc (c - 55) (by have := HexDigit.capital (c - 55) (by omega) (by omega); rwa [show 55 + (c - 55) = c by omega] at this)
      · exact hc (c - 87) (by have := HexDigit.small (c - 87) (by omega) (by omega); rwa [show 87 + (c - 87) = c by omega] at this)) e

/-- A code beyond U+10FFFF (of at most 32 bits). -/
theorem C40_rejects_big_code (h : Pattern o.flavor s ts) (ho : OrderedCounts ts) {ds : List Nat} {c : Nat} (hc : Hex ds c) (h1 : 0x10FFFF < c) (h2 : c < 2 ^ 32)
    (t : List Nat) (e : Encoding) : parsePattern o.features e (s ++ 92 :: 120 :: 123 :: (ds ++ 125 :: t)) = .throws :=
  error_rejected h ho (.quoted (by omega)) (lex_big_code o.implements hc h1 h2 t) e

/-- A text, whatever is in it, that ends in an unpaired backslash: it is rejected unless the tokens before the backslash contain a count with reversed
bounds; in no case there is an automaton. -/
theorem C40_rejects_trailing_backslash (hc : Clean s) (hp : ¬ Paired s) (e : Encoding) : (∀ f, parsePattern o.features e s ≠ .ok f) ∧
    (OrderedCounts (tokensRead o.features (s.length + 1) s) → parsePattern o.features e s = .throws) := by
  have ht : tokens o.features (s.length + 1) s = .throws := by
    have h := tokens_reads o.features (s.length + 1) s (clean_tidy hc) (by omega)
    cases ht : tokens o.features (s.length + 1) s with
    | throws => rfl
    | bad => rw [ht] at h; exact h.elim
    | ok ts => rw [ht] at h; exact absurd h hp
  refine ⟨fun f hf => ?_, parsePattern_error ht⟩
  obtain ⟨ts, t, h1, -⟩ := parsePattern_ok hf
  rw [ht] at h1
  cases h1

/-! ### C54: parsing ends -/

/-- Every text is either read as tokens or rejected. -/
theorem C54_lexing_ends (hc : Clean s) : (∃ ts, tokens o.features (s.length + 1) s = .ok ts) ∨ tokens o.features (s.length + 1) s = .throws := by
  have h := tokens_reads o.features (s.length + 1) s (clean_tidy hc) (by omega)
  cases ht : tokens o.features (s.length + 1) s with
  | throws => exact .inr rfl
  | bad => rw [ht] at h; exact h.elim
  | ok ts => exact .inl ⟨ts, rfl⟩

/-- Every text is translated to an automaton or rejected, unless it contains a count with reversed bounds. -/
theorem C54_parsing_ends (hc : Clean s) (e : Encoding) : (∃ f, parsePattern o.features e s = .ok f) ∨ parsePattern o.features e s = .throws ∨
    ∃ lo hi, Tok.count lo (some hi) ∈ tokensRead o.features (s.length + 1) s ∧ hi < lo := by
  by_cases ho : OrderedCounts (tokensRead o.features (s.length + 1) s)
  · have h := parsePattern_ends (e := e) (F := o.features) (s := s) (by
      rcases C54_lexing_ends (o := o) hc with ⟨ts, ht⟩ | ht <;> rw [ht] <;> intro h <;> cases h) ho
    cases hr : parsePattern o.features e s with
    | ok f => exact .inl ⟨f, rfl⟩
    | throws => exact .inr (.inl rfl)
    | bad => exact absurd hr h
  · unfold OrderedCounts at ho
    push Not at ho
    exact .inr (.inr ho)

/-! ### C41 -/

/-- `x{lo,hi}`, `x{lo,}`, `x{n}`, `x?`, `x*`, `x+`: the language of `x` between `lo` and `hi` times, if `x` is not an empty
group. -/
theorem C41_counts {f : Fsm} (h : f.Good) (hi : f.initial ∉ f.finals) {lo : Nat} {up : Option Nat} (hle : ∀ n, up = some n → lo ≤ n) :
    ∃ g, repeatAction f lo up = .ok g ∧ g.Good ∧ ∀ w, w ∈ g.Lang ↔ ∃ n, lo ≤ n ∧ (∀ k, up = some k → n ≤ k) ∧ w ∈ f.Lang ^ n := by
  have := repeatAction_sat (emp := false) h rfl (fun _ => hi) hle (fun h => by cases h)
  cases hr : repeatAction f lo up with
  | ok g =>
    rw [hr] at this
    refine ⟨g, rfl, this.1, fun w => ?_⟩
    rw [this.2.1]; rfl
  | throws => rw [hr] at this; exact this.elim
  | bad => rw [hr] at this; exact this.elim

/-- For `x?`, `x*`, `x+`, `x{0,n}` and `x{0}` that proviso is not needed. -/
theorem C41_counts_any {f : Fsm} (h : f.Good) {lo : Nat} {up : Option Nat} (hlo : lo = 0 ∨ (lo = 1 ∧ up = none)) :
    ∃ g, repeatAction f lo up = .ok g ∧ g.Good ∧ ∀ w, w ∈ g.Lang ↔ ∃ n, lo ≤ n ∧ (∀ k, up = some k → n ≤ k) ∧ w ∈ f.Lang ^ n := by
  have := repeatAction_sat (emp := true) h rfl (fun h => by cases h) (lo := lo) (hi := up) (by
    rintro n rfl
    rcases hlo with rfl | ⟨_, h⟩
    · omega
    · cases h) (fun _ => hlo)
  cases hr : repeatAction f lo up with
  | ok g =>
    rw [hr] at this
    refine ⟨g, rfl, this.1, fun w => ?_⟩
    rw [this.2.1]; rfl
  | throws => rw [hr] at this; exact this.elim
  | bad => rw [hr] at this; exact this.elim

/-- Reversed bounds are not diagnosed: the loop that builds the automaton does not end. -/
theorem C41_reversed_bounds (f : Fsm) {lo up : Nat} (h : up < lo) : repeatAction f lo (some up) = .bad := by
  unfold repeatAction
  rw [if_neg (by simp; omega), if_neg (by simp), if_neg (by simp)]
  dsimp only
  rw [if_neg (by omega), if_pos h]

/-- Repeating the empty group twice matches nothing, it should match the empty word. -/
theorem C41_empty_group_defect : ∃ g, repeatAction Fsm.init 2 (some 2) = .ok g ∧ g.Lang = 0 := by
  refine ⟨Fsm.init.power 2, rfl, ?_⟩
  exact C04_concat_with_empty_word_is_wrong (Fsm.power_good Fsm.Good.init 1).wf (Fsm.power_good Fsm.Good.init 1).coh

/-! ### C42 -/

/-- The tree of one character set. -/
def setTree (cs : Finset Nat) (neg : Bool) : Alt := .one (.one (.one (.snoc .nil (.one (.letters cs neg)))))

theorem setTree_den (cs : Finset Nat) (neg : Bool) (k : Codec) : (setTree cs neg).den k = (Term.letters cs neg).den k := by
  unfold setTree
  rw [Alt.den, Conj.den, Neg.den, Cat.den, Cat.den, Iter.den, one_mul]

theorem one_token {t : List Nat} {cs : Finset Nat} {neg : Bool} (h : Written o.flavor t (.letters cs neg)) (hlt : ∀ c ∈ cs, c < 0x200000) (e : Encoding) :
    (∃ f, parsePattern o.features e t = .ok f ∧ f.Good ∧ f.Lang = (Term.letters cs neg).den (codec e)) ∨
    (neg = true ∧ parsePattern o.features e t = .throws) := by
  have hp : Pattern o.flavor t [.letters cs neg] := by simpa using Pattern.cons h .nil
  rcases C43_pattern_language hp (t := setTree cs neg) rfl ⟨trivial, hlt, rfl⟩ e with ⟨f, h1, h2, h3⟩ | ⟨h1, h2⟩
  · exact .inl ⟨f, h1, h2, by rw [h3, setTree_den]⟩
  · refine .inr ⟨?_, h2⟩
    cases neg with
    | true => rfl
    | false => cases h1

/-- A bracket expression matches exactly the encodings of its characters. -/
theorem C42_bracket {t : List Nat} {cs : Finset Nat} (h : Items o.flavor true t cs) (hh : t.head? ≠ some 94)
    (hlt : ∀ c ∈ o.flavor.widen cs, c < 0x200000) (e : Encoding) :
    ∃ f, parsePattern o.features e (91 :: (t ++ [93])) = .ok f ∧ f.Good ∧
      ∀ w, w ∈ f.Lang ↔ ∃ c ∈ o.flavor.widen cs, w = (codec e).enc c ∧ w ≠ [] := by
  rcases one_token (.bracket h hh) hlt e with ⟨f, h1, h2, h3⟩ | ⟨h, -⟩
  · exact ⟨f, h1, h2, fun w => by rw [h3]; rfl⟩
  · cases h

/-- A negated bracket expression matches one character that is not in it. -/
theorem C42_negated_bracket {t : List Nat} {cs : Finset Nat} (h : Items o.flavor true t cs)
    (hlt : ∀ c ∈ o.flavor.widen cs, c < 0x200000) (e : Encoding) :
    (∃ f, parsePattern o.features e (91 :: 94 :: (t ++ [93])) = .ok f ∧ f.Good ∧
      ∀ w, w ∈ f.Lang ↔ w ∈ (codec e).one ∧ ¬ ∃ c ∈ o.flavor.widen cs, w = (codec e).enc c ∧ w ≠ []) ∨
    parsePattern o.features e (91 :: 94 :: (t ++ [93])) = .throws := by
  rcases one_token (.notBracket h) hlt e with ⟨f, h1, h2, h3⟩ | ⟨-, h⟩
  · exact .inl ⟨f, h1, h2, fun w => by rw [h3]; rfl⟩
  · exact .inr h

theorem charCode_lt {t : List Nat} {c : Nat} (h : Bound t c) : c < 0x200000 := (bound_usable h).2

/-- Without options the characters of a bracket expression always have a code below 0x200000. -/
theorem items_lt {b : Bool} {t : List Nat} {cs : Finset Nat} (h : Items Flavor.default b t cs) : ∀ c ∈ cs, c < 0x200000 := by
  induction h with
  | nil => intro c hc; simp at hc
  | dash _ ih =>
    intro c hc
    rcases Finset.mem_union.1 hc with hc | hc
    · have := Finset.mem_singleton.1 hc; omega
    · exact ih c hc
  | single hb _ ih =>
    intro c hc
    rcases Finset.mem_union.1 hc with hc | hc
    · rw [Finset.mem_singleton.1 hc]; exact charCode_lt hb
    · exact ih c hc
  | range _ _ hu _ ih =>
    intro c hc
    rcases Finset.mem_union.1 hc with hc | hc
    · obtain ⟨x, hx, hc⟩ := Finset.mem_biUnion.1 hc
      rw [Finset.mem_singleton.1 hc]
      have := Finset.mem_Icc.1 hx
      exact (hu x this.1 this.2).2
    · exact ih c hc
  | quoted hm _ ih =>
    intro c hc
    rcases Finset.mem_union.1 hc with hc | hc
    · rw [Finset.mem_singleton.1 hc]
      simp only [List.mem_cons, List.not_mem_nil, or_false] at hm; omega
    · exact ih c hc
  | bare hm _ ih =>
    intro c hc
    rcases Finset.mem_union.1 hc with hc | hc
    · rw [Finset.mem_singleton.1 hc]
      simp only [List.mem_cons, List.not_mem_nil, or_false] at hm; omega
    · exact ih c hc
  | cls hk _ ih =>
    intro c hc
    rcases Finset.mem_union.1 hc with hc | hc
    · have := class_range hk c hc; omega
    · exact ih c hc

/-- The default syntax. -/
theorem C42_default_bracket {t : List Nat} {cs : Finset Nat} (h : Items Flavor.default true t cs) (hh : t.head? ≠ some 94) (e : Encoding) :
    ∃ f, parsePattern defaultFeatures e (91 :: (t ++ [93])) = .ok f ∧ f.Good ∧ ∀ w, w ∈ f.Lang ↔ ∃ c ∈ cs, w = (codec e).enc c ∧ w ≠ [] := by
  have hw : Flavor.default.widen cs = cs := by simp [Flavor.default, Flavor.widen]
  obtain ⟨f, h1, h2, h3⟩ := C42_bracket (o := noOptions) (t := t) (cs := cs) (by rw [noOptions_flavor]; exact h) hh
    (by rw [noOptions_flavor, hw]; exact items_lt h) e
  rw [noOptions_flavor, hw] at h3
  exact ⟨f, h1, h2, h3⟩

/-- The classes `\d`, `\w`, ... -/
theorem C42_class {n : Nat} {k : Finset Nat} (h : charClass n = some k) (e : Encoding) :
    ∃ f, parsePattern defaultFeatures e [92, n] = .ok f ∧ f.Good ∧ ∀ w, w ∈ f.Lang ↔ ∃ c ∈ k, w = (codec e).enc c ∧ w ≠ [] := by
  have hw : Flavor.default.widen k = k := by simp [Flavor.default, Flavor.widen]
  have hwr : Written noOptions.flavor [92, n] (.letters k false) := by
    have := Written.cls (fl := Flavor.default) h
    rwa [hw, ← noOptions_flavor] at this
  rcases one_token hwr (fun c hc => by have := class_range h c hc; omega) e with ⟨f, h1, h2, h3⟩ | ⟨h, -⟩
  · exact ⟨f, h1, h2, fun w => by rw [h3]; rfl⟩
  · cases h

/-- Their complements `\D`, `\W`, ... -/
theorem C42_not_class {n : Nat} {k : Finset Nat} (h : charClass n = some k) (e : Encoding) :
    (∃ f, parsePattern defaultFeatures e [92, n - 32] = .ok f ∧ f.Good ∧
      ∀ w, w ∈ f.Lang ↔ w ∈ (codec e).one ∧ ¬ ∃ c ∈ k, w = (codec e).enc c ∧ w ≠ []) ∨ parsePattern defaultFeatures e [92, n - 32] = .throws := by
  have hw : Flavor.default.widen k = k := by simp [Flavor.default, Flavor.widen]
  have hwr : Written noOptions.flavor [92, n - 32] (.letters k true) := by
    have := Written.notCls (fl := Flavor.default) h
    rwa [hw, ← noOptions_flavor] at this
  rcases one_token hwr (fun c hc => by have := class_range h c hc; omega) e with ⟨f, h1, h2, h3⟩ | ⟨-, h⟩
  · exact .inl ⟨f, h1, h2, fun w => by rw [h3]; rfl⟩
  · exact .inr h

end Pire.Props
