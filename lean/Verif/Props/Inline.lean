import Verif.Proofs.KeptFlag
import Verif.Proofs.CText
import Verif.Props.GlueRests
import Verif.Props.Io
import Verif.Props.PatternCases

/-!
# C69: `PIRE_REGEXP("regexp1", "flags1", ...)`, the work of `pire_inline`
-/

namespace Pire.Props

open Pire Pire.Spec Pire.Lex Pire.Parse Pire.Enc Pire.Scn Pire.Multi Pire.Fsm Pire.Io Pire.Inline

/-! ### Specification -/

/-- The features the flags ask for: `i` and `a`. -/
def flagFeatures (l : List Nat) : List Feature := l.filterMap fun c => if c = 105 then some .caseInsensitive else if c = 97 then some .andNot else none

/-- The encoding they ask for: UTF-8 if there is a `u`. -/
def flagEncoding (l : List Nat) : Encoding := if 117 ∈ l then .utf8 else .latin1

/-- The flags there are: `i u s a g r`. -/
def KnownFlag (c : Nat) : Prop := c = 105 ∨ c = 117 ∨ c = 115 ∨ c = 97 ∨ c = 103 ∨ c = 114

instance (c : Nat) : Decidable (KnownFlag c) := inferInstanceAs (Decidable (_ ∨ _))

/-- The pattern is written in ASCII and stands for the tree `t` of the grammar with the features its flags ask for (neither `i` nor `a` is given twice). -/
structure Means (x : Item) (o : Options) (t : Alt) : Prop where
  flags : ∀ c ∈ x.flags, KnownFlag c
  options : o.list = flagFeatures x.flags
  ascii : ∀ c ∈ x.pattern, c < 128
  spelled : Pattern o.flavor x.pattern t.spell
  ok : t.Ok

/-- The words of `L` backwards. -/
def backwards (rev : Bool) (L : Language Nat) : Language Nat := {w | (if rev then w.reverse else w) ∈ L}

/-- Surrounded by anything; or, greedily, after a text that no word of `L` occurs in. -/
def placed (surround greedy : Bool) (L : Language Nat) : Language Nat :=
  {w | if greedy then ∃ u v, w = u ++ v ∧ IsWord u ∧ (∀ y ∈ L, ¬ y <:+: u) ∧ v ∈ L
    else if surround then ∃ u y v, w = u ++ y ++ v ∧ IsWord u ∧ y ∈ L ∧ IsWord v
    else w ∈ L}

/-- The language of a regexp with flags. -/
def itemLanguage (x : Item) (t : Alt) : Language Nat :=
  placed (decide (115 ∈ x.flags)) (decide (103 ∈ x.flags)) (backwards (decide (114 ∈ x.flags)) (t.den (codec (flagEncoding x.flags))))

/-! ### Reading the arguments -/

/-- Arguments written with plain characters and the escape sequences `\'`, `\"`, `\\`, `\n`, `\t`, a literal not ending with a backslash, are read as C++ reads them. -/
theorem C69_arguments {text : List Nat} {vs : List (List Nat)} (h : Args text vs) : readArguments (text.length + 1) text [] [] = some vs :=
  readArguments_args h _ [] (by omega)

/-- `"a\n" "b", "i")` -/
example : readArguments 100 [34, 97, 92, 110, 34, 32, 34, 98, 34, 44, 32, 34, 105, 34, 41] [] [] = some [[97, 10, 98], [105]] := by decide

/-- DEFECT: a literal whose last character is an escaped backslash is not recognised: `"\\", "")` is two arguments, but the rest of the text is read as part of the first. -/
theorem C69_last_backslash : Chars false [92, 92] [92] ∧ readArguments 100 [34, 92, 92, 34, 44, 32, 34, 34, 41] [] [] = some [[92, 34, 44, 32]] :=
  ⟨.simple .backslash .nil, by decide⟩

/-- DEFECT: `"\x41"` is `A`, but it is read as a zero and `41`. -/
theorem C69_hex_escape : Chars true [92, 120, 52, 49] [65] ∧ readArguments 100 [34, 92, 120, 52, 49, 34, 41] [] [] = some [[0, 52, 49]] :=
  ⟨.hex (ds := [52, 49]) (xs := [4, 1]) rfl (by decide) (by decide) (by simp) (by decide) .nil, by decide⟩

/-- DEFECT: the character after an octal escape sequence is lost, `"\101b"` is read as `A`. -/
theorem C69_octal_escape : Chars true [92, 49, 48, 49, 98] [65, 98] ∧ readArguments 100 [34, 92, 49, 48, 49, 98, 34, 41] [] [] = some [[65]] := by
  refine ⟨?_, by decide⟩
  exact .octal (ds := [49, 48, 49]) rfl (by decide) (by decide) (by simp [IsOct]) (.inl rfl) (by decide) (.plain (by decide) (by decide) (by decide) (by decide) .nil)

/-- DEFECT: a literal that ends with an octal escape sequence is rejected, as if it ended with a backslash. -/
theorem C69_octal_escape_last : Chars true [92, 49, 48, 49] [65] ∧ readArguments 100 [34, 92, 49, 48, 49, 34, 41] [] [] = none := by
  refine ⟨?_, by decide⟩
  exact .octal (ds := [49, 48, 49]) rfl (by decide) (by decide) (by simp [IsOct]) (.inl rfl) (by decide) .nil

/-! ### Flags -/

theorem takeWhile_all {p : Nat → Bool} : ∀ {l : List Nat}, (∀ c ∈ l, p c = true) → l.takeWhile p = l := by
  intro l
  induction l with
  | nil => intro _; rfl
  | cons c l ih =>
    intro h
    rw [List.takeWhile_cons_of_pos (h c (by simp)), ih fun x hx => h x (by simp [hx])]

theorem flags_fold (l : List Nat) (h : ∀ c ∈ l, KnownFlag c) : ∀ f : Flags, l.foldlM Flags.set f =
    some ⟨(flagFeatures l).foldl (fun F x => addFeature x F) f.features, if 117 ∈ l then .utf8 else f.enc, f.surround || decide (115 ∈ l),
      f.greedy || decide (103 ∈ l), f.reverse || decide (114 ∈ l)⟩ := by
  induction l with
  | nil => intro f; simp [flagFeatures]
  | cons c l ih =>
    intro f
    have ih := ih fun x hx => h x (by simp [hx])
    rw [List.foldlM_cons]
    rcases h c (by simp) with rfl | rfl | rfl | rfl | rfl | rfl <;> simp [Flags.set, ih, flagFeatures]

/-- The flags have their effect, in any order. -/
theorem C69_flags {l : List Nat} (h : ∀ c ∈ l, KnownFlag c) : Flags.read l =
    some ⟨(flagFeatures l).foldl (fun F x => addFeature x F) defaultFeatures, flagEncoding l, decide (115 ∈ l), decide (103 ∈ l), decide (114 ∈ l)⟩ := by
  have : l.takeWhile (· ≠ 0) = l := by
    refine takeWhile_all fun c hc => ?_
    have : c ≠ 0 := by rcases h c hc with rfl | rfl | rfl | rfl | rfl | rfl <;> decide
    simpa using this
  rw [Flags.read, this, flags_fold l h]
  simp [flagEncoding]

/-- Any other flag is rejected. -/
theorem C69_unknown_flag {x : Item} {c : Nat} (hc : c ∈ x.flags) (hk : ¬ KnownFlag c) (h0 : 0 ∉ x.flags) : x.automaton = .throws := by
  have e : x.flags.takeWhile (· ≠ 0) = x.flags := by
    refine takeWhile_all fun d hd => ?_
    have : d ≠ 0 := by rintro rfl; exact h0 hd
    simpa using this
  have key : ∀ (l : List Nat) (f : Flags), c ∈ l → l.foldlM Flags.set f = none := by
    intro l
    induction l with
    | nil => intro f h; cases h
    | cons d l ih =>
      intro f h
      rw [List.foldlM_cons]
      rcases List.mem_cons.1 h with rfl | h
      · unfold KnownFlag at hk
        push Not at hk
        obtain ⟨h1, h2, h3, h4, h5, h6⟩ := hk
        rw [Flags.set, if_neg h1, if_neg h2, if_neg h3, if_neg h4, if_neg h5, if_neg h6]
        rfl
      · cases Flags.set f d with
        | none => rfl
        | some g => exact ih g h
  unfold Item.automaton
  rw [Flags.read, e, key _ _ hc]

/-! ### The automaton of a regexp -/

theorem assignChars_ascii {s : List Nat} (h : ∀ c ∈ s, c < 128) : assignChars s = s := by
  unfold assignChars
  conv_rhs => rw [← List.map_id s]
  exact List.map_congr_left fun c hc => by rw [if_pos (h c hc)]; rfl

/-- What is needed for compiling. -/
structure Ready (f : Fsm) : Prop where
  good : f.Good
  tags : f.TagsClean
  flag : f.determined = false

theorem greedy_language {f g : Fsm} (h : f.Good) (hg : f.surround.complement = some g) :
    (g.concat f).Lang = placed false true f.Lang := by
  have hgood := (complement_spec h.surround hg).1
  have hw : ∀ w, w ∈ g.Lang ↔ IsWord w ∧ ∀ y ∈ f.Lang, ¬ y <:+: w := by
    intro w
    rw [C07_complement h.surround hg]
    refine and_congr_right fun hw => ?_
    rw [C10_surround h.wf]
    constructor
    · rintro hn y hy ⟨u, v, rfl⟩
      exact hn ⟨u, y, v, rfl, fun c hc => hw c (by simp [hc]), hy, fun c hc => hw c (by simp [hc])⟩
    · rintro hn ⟨u, y, v, rfl, -, hy, -⟩
      exact hn y hy ⟨u, v, rfl⟩
  have hmem : ∀ w, w ∈ g.Lang * f.Lang ↔ w ∈ placed false true f.Lang := by
    intro w
    rw [Language.mem_mul]
    constructor
    · rintro ⟨u, hu, v, hv, rfl⟩
      exact ⟨u, v, rfl, ((hw u).1 hu).1, ((hw u).1 hu).2, hv⟩
    · rintro ⟨u, v, rfl, h1, h2, hv⟩
      exact ⟨u, (hw u).2 ⟨h1, h2⟩, v, hv, rfl⟩
  by_cases hi : f.initial ∈ f.finals
  · have he : [] ∈ f.Lang := ⟨f.initial, hi, .refl _⟩
    have hz : ∀ w, w ∉ g.Lang := fun w hm => ((hw w).1 hm).2 [] he (List.nil_infix)
    ext w
    rw [← hmem, C04_concat_exact hgood.wf hgood.coh h.wf h.coh, Language.mem_mul, Language.mem_mul]
    constructor
    · rintro ⟨u, hu, -⟩; exact absurd hu (hz u)
    · rintro ⟨u, hu, -⟩; exact absurd hu (hz u)
  · rw [lang_concat hgood.wf hgood.coh h.wf h.coh hi]
    ext w
    exact hmem w

variable {x : Item} {o : Options} {t : Alt}

/-- A regexp of the grammar with known flags gives an automaton for its language as the flags change it. It is rejected only for `g` together with `s`, or because of
a determinisation that is too big: there is `~`, `&` or `[^...]` in it, or the flag `g`. -/
theorem C69_automaton (h : Means x o t) : (∃ f, x.automaton = .ok f ∧ Ready f ∧ f.Lang = itemLanguage x t) ∨
    (x.automaton = .throws ∧ (t.plain = false ∨ 103 ∈ x.flags)) := by
  have hF : (flagFeatures x.flags).foldl (fun F x => addFeature x F) defaultFeatures = o.features := by rw [Options.features, h.options]
  rcases C43_pattern_language h.spelled rfl h.ok (flagEncoding x.flags) with ⟨f, hf, hg, hL⟩ | ⟨hp, hf⟩
  swap
  · right
    refine ⟨?_, .inl hp⟩
    unfold Item.automaton
    rw [C69_flags h.flags]
    dsimp only
    rw [hF, assignChars_ascii h.ascii, hf]
    rfl
  have ht : f.TagsClean := (kept_tags _ or_mod4).parsePattern _ _ f hf
  have hd : f.determined = false := (kept_undetermined _).parsePattern _ _ f hf
  obtain ⟨f1, e1, g1, hb⟩ : ∃ f1, (if decide (114 ∈ x.flags) = true then f.reverse else f) = f1 ∧ Ready f1 ∧
      f1.Lang = backwards (decide (114 ∈ x.flags)) (t.den (codec (flagEncoding x.flags))) := by
    refine ⟨_, rfl, ?_⟩
    by_cases hr : 114 ∈ x.flags
    · rw [if_pos (by simpa using hr), ← hL]
      refine ⟨⟨hg.reverse, Fsm.TagsIn.of_eq ht (reverse_tags f), reverse_determined f⟩, ?_⟩
      ext w
      rw [C11_reverse hg.wf]
      simp [backwards, hr]
      rfl
    · rw [if_neg (by simpa using hr), ← hL]
      refine ⟨⟨hg, ht, hd⟩, ?_⟩
      ext w
      simp [backwards, hr]
      rfl
  unfold itemLanguage
  rw [← hb]
  have ea : x.automaton = if (decide (103 ∈ x.flags) && decide (115 ∈ x.flags)) = true then .throws
      else if decide (103 ∈ x.flags) = true then (lift f1.surround.complement).bind fun g => .ok (g.concat f1)
      else if decide (115 ∈ x.flags) = true then .ok f1.surround else .ok f1 := by
    unfold Item.automaton
    rw [C69_flags h.flags]
    dsimp only
    rw [hF, assignChars_ascii h.ascii, hf, ← e1]
    rfl
  rw [ea]
  by_cases hg' : 103 ∈ x.flags
  · by_cases hs : 115 ∈ x.flags
    · right
      exact ⟨by simp [hg', hs], .inr hg'⟩
    · cases hc : f1.surround.complement with
      | none =>
        right
        refine ⟨?_, .inr hg'⟩
        simp [hg', hs, e1, hc, lift]
        rfl
      | some g =>
        left
        have ho := (g1.good.surround.wf)
        refine ⟨g.concat f1, ?_, ⟨(complement_spec g1.good.surround hc).1.concat g1.good, ?_, rfl⟩, ?_⟩
        · simp [hg', hs, hc, lift]
          rfl
        · have h1 : f1.surround.TagsIn (· % 4 = 0) := Fsm.TagsIn.of_eq g1.tags (surround_tags f1)
          exact (h1.complement or_mod4 hc).concat g1.tags
        · rw [greedy_language g1.good hc]
          simp [hs, hg']
  · by_cases hs : 115 ∈ x.flags
    · left
      refine ⟨f1.surround, by simp [hg', hs], ⟨g1.good.surround, Fsm.TagsIn.of_eq g1.tags (surround_tags f1), rfl⟩, ?_⟩
      ext w
      rw [C10_surround g1.good.wf]
      simp [placed, hg', hs]
      rfl
    · left
      refine ⟨f1, by simp [hg', hs], g1, ?_⟩
      ext w
      simp [placed, hg', hs]
      rfl

/-! ### The scanner for all of them -/

/-- A scanner in use: its memory is in order, it recognises the languages, has no superfluous states and can be saved. -/
structure InUse (s : Multi) (Ls : List (Language Nat)) : Prop where
  valid : Valid scannerPolicy s
  recognizes : Recognizes scannerPolicy s Ls
  reduced : Reduced scannerPolicy s Ls
  storable : Storable scannerPolicy s.m

/-- Blocks are allocated at aligned addresses in the lower half of the address space, and the empty scanner is at such an address, too. -/
structure Allocates (null : Multi) (addr : Nat → Nat) : Prop where
  align : ∀ n, addr n % 8 = 0
  space : ∀ n, addr n ≤ 2 ^ 63
  null : ∃ b, b % 8 = 0 ∧ b ≤ 2 ^ 63 ∧ Multi.null scannerPolicy b = some null

/-- All regexps mean something. -/
inductive AllMean : List Item → List (Language Nat) → Prop
  | nil : AllMean [] []
  | cons {x : Item} {o : Options} {t : Alt} {xs : List Item} {Ls : List (Language Nat)} : Means x o t → AllMean xs Ls → AllMean (x :: xs) (itemLanguage x t :: Ls)

theorem AllMean.length {xs : List Item} {Ls : List (Language Nat)} (h : AllMean xs Ls) : xs.length = Ls.length := by
  induction h with
  | nil => rfl
  | cons _ _ ih => rw [List.length_cons, List.length_cons, ih]

theorem scanner_typedef : Typedef scannerPolicy := .inl rfl

theorem InUse.fits {s : Multi} {Ls : List (Language Nat)} (h : InUse s Ls) {b : Nat} (hb : b % 8 = 0) (hb' : b ≤ 2 ^ 63) : Fits scannerPolicy b s.m := by
  obtain ⟨T, hT⟩ := h.valid
  have := bufSize_lt (P := scannerPolicy) rfl hT.fits h.storable
  exact ⟨hb, by omega, hT.fits.disp⟩

theorem InUse.null {null : Multi} {addr : Nat → Nat} (h : Allocates null addr) : InUse null [] ∧ null.empty = true := by
  obtain ⟨b, h1, h2, h3⟩ := h.null
  obtain ⟨e1, e2, e3⟩ := C26_empty_scanner scanner_typedef h3 h1 h2
  exact ⟨⟨e2, e3, C26_empty_reduced scanner_typedef h3 h1 h2, C35_storable_empty h3⟩, e1⟩

theorem InUse.copy {s : Multi} {Ls : List (Language Nat)} (h : InUse s Ls) {b : Nat} (hb : b % 8 = 0) (hb' : b ≤ 2 ^ 63) :
    InUse (copyCtor scannerPolicy (!s.empty) b s) Ls ∧ (copyCtor scannerPolicy (!s.empty) b s).empty = s.empty := by
  have ho : (!s.empty) = true → s.empty = false ∧ Fits scannerPolicy b s.m := fun he => ⟨by simpa using he, h.fits hb hb'⟩
  obtain ⟨h1, h2, h3⟩ := C37_copy_constructor scanner_typedef h.valid h.recognizes ho
  refine ⟨⟨h2, h1, C26_copy_reduced scanner_typedef h.valid h.reduced ho, ?_⟩, h3⟩
  unfold copyCtor
  split
  · exact C35_storable_copied h.storable
  · exact h.storable

theorem scanner_holds (h : Means x o t) {b : Nat} (hb : b % 8 = 0) (hb' : b ≤ 2 ^ 63) :
    x.scanner b = .throws ∨ ∃ s, x.scanner b = .ok s ∧ InUse s [itemLanguage x t] ∧ s.empty = false := by
  unfold Item.scanner
  rcases C69_automaton h with ⟨f, hf, hr, hL⟩ | ⟨hf, -⟩
  swap
  · rw [hf]; exact .inl rfl
  rw [hf]
  show (match compile scannerPolicy b f with | none => Res.throws | some s => .ok s) = .throws ∨ ∃ s, (match compile scannerPolicy b f with | none => Res.throws | some s => .ok s) = .ok s ∧ _
  cases hc : compile scannerPolicy b f with
  | none => exact .inl rfl
  | some s =>
    right
    have hp : Placed scannerPolicy b f s := ⟨hb, compile_bufSize scanner_typedef.real hr.good hc hb' hr.flag, by rw [hr.flag]; simp⟩
    obtain ⟨v, e, r⟩ := compile_spec scanner_typedef.real hr.good hr.tags hc hp.align hp.space hp.small
    have hd := C26_compiled_reduced scanner_typedef hr.good hr.tags hc hp
    rw [hL] at r hd
    exact ⟨s, rfl, ⟨v, r, hd, C35_storable_compiled hc⟩, e⟩

theorem ManyRests.mono {As Bs : List (Language Nat)} {n : Nat} (h : ManyRests As n) (hs : ∀ L ∈ As, L ∈ Bs) : ManyRests Bs n := by
  obtain ⟨ws, h1, h2, h3⟩ := h
  exact ⟨ws, h1, h2.imp fun hn hb => hn fun L hL => hb L (hs L hL), h3⟩

variable {null : Multi} {addr : Nat → Nat}

/-- One round of the loop. -/
theorem glueAll_step (ha : Allocates null addr) {sc : Multi} {As : List (Language Nat)} (hs : InUse sc As) (hx : Means x o t) (hl : As.length ≤ 53000) (n : Nat)
    (xs : List Item) : glueAll null addr n sc (x :: xs) = .throws ∨ ∃ sc', glueAll null addr n sc (x :: xs) = glueAll null addr (n + 4) sc' xs ∧
      (¬ (sc.empty = false ∧ ManyRests (As ++ [itemLanguage x t]) 80000) → InUse sc' (As ++ [itemLanguage x t])) ∧
      (sc.empty = false ∧ ManyRests (As ++ [itemLanguage x t]) 80000 → InUse sc' [] ∧ sc'.empty = true) := by
  rw [glueAll]
  rcases scanner_holds hx (ha.align n) (ha.space n) with e | ⟨tsc, e, ht, hte⟩
  · rw [e]; exact .inl rfl
  right
  rw [e]
  have hroom : GlueRoom scannerPolicy sc tsc (!sc.empty) true As [itemLanguage x t] (addr (n + 1)) (addr (n + 2)) 0 :=
    ⟨ha.align _, ha.space _, ha.align _, ha.space _, by decide, by
      show (As.length + 1 + 1) * (80000 + 1) < 2 ^ 32
      have := Nat.mul_le_mul_right (80000 + 1) (show As.length + 1 + 1 ≤ 53002 by omega)
      omega, fun he => ⟨by simpa using he, hs.fits (ha.align _) (ha.space _)⟩, fun _ => ⟨hte, ht.fits (ha.align _) (ha.space _)⟩⟩
  obtain ⟨g, e1, e2, e3⟩ := C26_by_languages (nul := null) scanner_typedef hs.valid ht.valid hs.recognizes ht.recognizes hroom hs.reduced ht.reduced
  have hgl : glueLimit 0 = 80000 := rfl
  rw [hgl, hte] at e2 e3
  have hst : Storable scannerPolicy g.m := C35_storable_glued (InUse.null ha).1.storable hs.storable ht.storable e1
  show ∃ sc', (match glue scannerPolicy null (!sc.empty) true (addr (n + 1)) (addr (n + 2)) sc tsc with
    | .bad => Res.bad | .fail => .bad | .ok g => glueAll null addr (n + 4) (copyCtor scannerPolicy (!g.empty) (addr (n + 3)) g) xs) = _ ∧ _
  rw [e1]
  refine ⟨_, rfl, fun h => ?_, fun h => ?_⟩
  · obtain ⟨v, r, d⟩ := e2 fun hc => h ⟨hc.1, hc.2.2⟩
    exact (InUse.copy ⟨v, r, d, hst⟩ (ha.align _) (ha.space _)).1
  · rw [e3 ⟨h.1, rfl, h.2⟩]
    obtain ⟨c1, c2⟩ := InUse.copy (InUse.null ha).1 (ha.align (n + 3)) (ha.space (n + 3))
    exact ⟨c1, c2.trans (InUse.null ha).2⟩

theorem glueAll_spec (ha : Allocates null addr) {xs : List Item} {Ls : List (Language Nat)} (h : AllMean xs Ls) : ∀ {sc : Multi} {As : List (Language Nat)} (n : Nat),
    InUse sc As → As.length + Ls.length ≤ 53000 → glueAll null addr n sc xs = .throws ∨
      ∃ s k, glueAll null addr n sc xs = .ok s ∧ InUse s ((As ++ Ls).drop k) ∧ (k = 0 ∨ ManyRests (As ++ Ls) 80000) := by
  induction h with
  | nil =>
    intro sc As n hs _
    right
    exact ⟨sc, 0, rfl, by simpa using hs, .inl rfl⟩
  | @cons x o t xs Ls hx _ ih =>
    intro sc As n hs hl
    rw [List.length_cons] at hl
    rcases glueAll_step ha hs hx (by omega) n xs with e | ⟨sc', e, h1, h2⟩
    · exact .inl e
    rw [e]
    by_cases hm : sc.empty = false ∧ ManyRests (As ++ [itemLanguage x t]) 80000
    · rcases ih (n + 4) (h2 hm).1 (by simp; omega) with e' | ⟨s, k, e', hh, -⟩
      · exact .inl e'
      · right
        refine ⟨s, As.length + 1 + k, e', ?_, .inr (hm.2.mono fun L hL => ?_)⟩
        · rw [show As ++ itemLanguage x t :: Ls = As ++ [itemLanguage x t] ++ Ls by simp, List.drop_append, List.drop_eq_nil_of_le (by simp)]
          simpa [Nat.add_sub_cancel_left] using hh
        · rcases List.mem_append.1 hL with hL | hL
          · simp [hL]
          · simp [List.mem_singleton.1 hL]
    · rcases ih (n + 4) (h1 hm) (by simp; omega) with e' | ⟨s, k, e', hh, hk⟩
      · exact .inl e'
      · right
        rw [List.append_assoc] at hh hk
        exact ⟨s, k, e', hh, hk⟩

/-- Up to 53000 regexps: unless one of them is rejected, the scanner recognises all of them, in their order - or, if there are more than 80001 words that the regexps tell
apart, possibly only the last ones: a failure of `Glue` is not noticed, see `C69_glue_failure_unnoticed`. Nothing undefined happens. -/
theorem C69_scanner (ha : Allocates null addr) {xs : List Item} {Ls : List (Language Nat)} (h : AllMean xs Ls) (hl : xs.length ≤ 53000) :
    scanners null addr xs = .throws ∨ ∃ s k, scanners null addr xs = .ok s ∧ InUse s (Ls.drop k) ∧ (k = 0 ∨ ManyRests Ls 80000) := by
  have hlen := h.length
  cases h with
  | nil => exact .inl rfl
  | @cons x o t xs Ls hx h =>
    rw [scanners]
    rcases scanner_holds hx (ha.align 0) (ha.space 0) with e | ⟨tsc, e, ht, -⟩
    · rw [e]; exact .inl rfl
    rw [e]
    rw [List.length_cons, List.length_cons] at hlen
    rw [List.length_cons] at hl
    exact glueAll_spec ha h 1 ht (by simp; omega)

/-- If the number of regexps in the scanner is the number of those given, it recognises all of them. -/
theorem C69_count_tells {s : Multi} {Ls : List (Language Nat)} {k : Nat} (h : InUse s (Ls.drop k)) (hc : s.regexpsCount = Ls.length) : Recognizes scannerPolicy s Ls := by
  have := h.recognizes.count
  rw [hc, List.length_drop] at this
  cases k with
  | zero => exact h.recognizes
  | succ k =>
    have : Ls = [] := List.length_eq_zero_iff.1 (by omega)
    subst this
    exact h.recognizes

/-- DEFECT: with three regexps, the first two of which are too much for `Glue`, the scanner recognises the third only. -/
theorem C69_glue_failure_unnoticed (ha : Allocates null addr) {x1 x2 x3 : Item} {o1 o2 o3 : Options} {t1 t2 t3 : Alt} (h1 : Means x1 o1 t1) (h2 : Means x2 o2 t2)
    (h3 : Means x3 o3 t3) (hm : ManyRests [itemLanguage x1 t1, itemLanguage x2 t2] 80000) :
    scanners null addr [x1, x2, x3] = .throws ∨ ∃ s, scanners null addr [x1, x2, x3] = .ok s ∧ Recognizes scannerPolicy s [itemLanguage x3 t3] := by
  rw [scanners]
  rcases scanner_holds h1 (ha.align 0) (ha.space 0) with e | ⟨tsc, e, ht, he⟩
  · rw [e]; exact .inl rfl
  rw [e]
  show glueAll null addr 1 tsc [x2, x3] = _ ∨ ∃ s, glueAll null addr 1 tsc [x2, x3] = _ ∧ _
  rcases glueAll_step ha ht h2 (by simp) 1 [x3] with e | ⟨sc, e, -, g⟩
  · exact .inl e
  rw [e]
  obtain ⟨hs, hse⟩ := g ⟨he, hm⟩
  rcases glueAll_step ha hs h3 (by simp) (1 + 4) [] with e | ⟨sc', e, g', -⟩
  · exact .inl e
  · exact .inr ⟨sc', e, (g' fun hc => by rw [hse] at hc; cases hc.1).recognizes⟩

/-! ### The generated text -/

/-- A text that a C++ compiler reads as a comment and one string, whatever its bytes, if there is no line break in the patterns. -/
theorem C69_text {xs : List Item} (h : ∀ y ∈ xs, 10 ∉ y.pattern) (bytes : List (Fin 256)) :
    Commented (literalText xs bytes) (bytes.map (·.val)) ∧ ∀ v, Commented (literalText xs bytes) v → v = bytes.map (·.val) :=
  ⟨commented_literal h bytes, fun _ hv => hv.unique (commented_literal h bytes)⟩

/-- DEFECT: a line break in a pattern - `"a\nb"` - ends the comment, and the rest of the pattern is read as program text. -/
theorem C69_line_break (flags : List Nat) (bytes : List (Fin 256)) :
    readArguments 100 [34, 97, 92, 110, 98, 34, 41] [] [] = some [[97, 10, 98]] ∧ ¬ ∃ v, Commented (literalText [⟨[97, 10, 98], flags⟩] bytes) v := by
  refine ⟨by decide, ?_⟩
  rintro ⟨v, c, w, t, h1, h2, h3, e⟩
  have e' : [32, 97] ++ 10 :: (98 :: (([32, 10, 32, 32, 32, 32, 34] ++ printBytes 5 bytes) ++ [34])) = c ++ 10 :: (w ++ t) := by
    simpa [literalText, comment, List.intercalate] using e
  obtain ⟨-, e2⟩ := line_unique (by decide) h1 e'
  obtain ⟨r, rfl⟩ := h3.head
  cases w with
  | nil => simp at e2
  | cons x w =>
    have := h2 x (by simp)
    simp at e2
    omega

theorem holds_saved {s : Multi} {Ls : List (Language Nat)} (h : InUse s Ls) {null' : Multi} {b : Nat} (hb : b % 8 = 0) (hb' : b ≤ 2 ^ 63)
    (hn : Multi.null scannerPolicy b = some null') (pad : Nat → Fin 256) {mem : Mem} {ptr : Nat} (hp : ptr % 8 = 0)
    (hs : ptr + 8 * (saveReloc scannerPolicy pad s).length < 2 ^ 64)
    (hm : memBytes mem ptr (saveReloc scannerPolicy pad s).length = saveReloc scannerPolicy pad s) :
    ∃ s' p, mmap scannerPolicy null' mem ptr (saveReloc scannerPolicy pad s).length = .ok s' p ∧ Recognizes scannerPolicy s' Ls := by
  have e : ∀ rnull tmp, save scannerPolicy pad rnull tmp s = saveReloc scannerPolicy pad s := fun _ _ => rfl
  cases he : s.empty with
  | false =>
    obtain ⟨s', h1, h2, -⟩ := C36_mmap_saved (null := null') (rnull := null') (tmp := 0) (pad := pad) scanner_typedef rfl h.valid h.storable he (mem := mem) (ptr := ptr)
      (size := (saveReloc scannerPolicy pad s).length) hp hs (by rw [e]; exact hm) (by rw [e])
    exact ⟨s', _, h1, h2.recognizes h.recognizes⟩
  | true =>
    have h1 := C36_mmap_empty (null := null') (rnull := null') (tmp := 0) (pad := pad) scanner_typedef rfl h.storable he (mem := mem) (ptr := ptr)
      (size := (saveReloc scannerPolicy pad s).length) hp hs (by rw [e]; exact hm) (by rw [e])
    have hz : Ls = [] := by
      have := h.recognizes.count
      unfold regexpsCount at this
      rw [he, if_pos rfl] at this
      exact List.length_eq_zero_iff.1 this.symm
    subst hz
    exact ⟨null', _, h1, (C26_empty_scanner scanner_typedef hn hb hb').2.2⟩

/-- The whole of it. `PIRE_REGEXP("regexp1", "flags1", ...)` is replaced by a comment and a string, from which, put at an aligned address and given to `MmappedScanner` with the
generated size, one gets a scanner that recognises all the regexps in their order (or possibly the last ones only, if `Glue` fails on them). The string must be shorter than
4 GB; the patterns are in ASCII and without line breaks. -/
theorem C69_inline (ha : Allocates null addr) {pad : Nat → Fin 256} {text : List Nat} {args : List (List Nat)} (ht : Args text args) {xs : List Item}
    (hi : items args = some xs) {Ls : List (Language Nat)} (h : AllMean xs Ls) (hl : xs.length ≤ 53000) (hn : ∀ y ∈ xs, 10 ∉ y.pattern) {g : Generated}
    (hg : expand null addr pad text = .ok g) :
    ∃ v k, (∀ v', Commented g.text v' ↔ v' = v) ∧ (k = 0 ∨ ManyRests Ls 80000) ∧
      ∀ (mem : Mem) (ptr b : Nat) (null' : Multi), b % 8 = 0 → b ≤ 2 ^ 63 → Multi.null scannerPolicy b = some null' → v.length < 2 ^ 32 →
        ptr % 8 = 0 → ptr + 8 * v.length < 2 ^ 64 → (∀ i (hi : i < v.length), (mem (ptr + i)).val = v[i]) →
        ∃ s p, mmap scannerPolicy null' mem ptr g.size = .ok s p ∧ Recognizes scannerPolicy s (Ls.drop k) := by
  unfold expand at hg
  rw [C69_arguments ht] at hg
  dsimp only at hg
  unfold generate at hg
  rw [hi] at hg
  dsimp only at hg
  rcases C69_scanner ha h hl with e | ⟨s, k, e, hs, hk⟩
  · rw [e] at hg; cases hg
  rw [e] at hg
  cases hg
  obtain ⟨c1, c2⟩ := C69_text hn (saveReloc scannerPolicy pad s)
  refine ⟨_, k, fun v' => ⟨c2 v', fun hv => hv ▸ c1⟩, hk, ?_⟩
  intro mem ptr b null' hb hb' hnl h32 hp hsz hmem
  rw [List.length_map] at h32 hsz
  show ∃ s_1 p, mmap scannerPolicy null' mem ptr ((saveReloc scannerPolicy pad s).length % 2 ^ 32) = _ ∧ _
  rw [Nat.mod_eq_of_lt h32]
  refine holds_saved hs hb hb' hnl pad hp hsz ?_
  apply List.ext_getElem
  · simp [memBytes]
  · intro i h1 h2
    have := hmem i (by simpa using h2)
    simp only [List.getElem_map] at this
    simp only [memBytes, List.getElem_map, List.getElem_range]
    exact Fin.ext this

/-- An odd number of arguments is an error. -/
theorem C69_usage {args : List (List Nat)} (h : args.length % 2 = 1) (pad : Nat → Fin 256) : generate null addr pad args = .throws := by
  have : ∀ (n : Nat) (l : List (List Nat)), l.length ≤ n → l.length % 2 = 1 → items l = none := by
    intro n
    induction n with
    | zero => intro l hl ho; omega
    | succ n ih =>
      intro l hl ho
      match l with
      | [] => simp at ho
      | [_] => rfl
      | p :: f :: l =>
        simp only [List.length_cons] at hl ho
        rw [items, ih l (by omega) (by omega)]
        rfl
  unfold generate
  rw [this _ args le_rfl h]

/-! ### The hypotheses are met -/

theorem sample_ok : sampleTree.Ok := by
  refine ⟨⟨⟨trivial, ?_, rfl⟩, ?_, rfl⟩, ⟨trivial, ⟨?_, ?_, ?_⟩, rfl⟩, trivial, rfl⟩
  · intro c hc; rw [Finset.mem_singleton.1 hc]; omega
  · intro c hc; rw [Finset.mem_singleton.1 hc]; omega
  · intro c hc; have := (Finset.mem_Icc.1 hc).2; omega
  · intro h hh; cases hh
  · intro hh; cases hh

/-- `ab|[c-e]*$` with the flag `s`, and with `ur`. -/
def sampleItems : List Item := [⟨text "ab|[c-e]*$", text "s"⟩, ⟨text "ab|[c-e]*$", text "ur"⟩]

theorem sample_means (fs : List Nat) (h : ∀ c ∈ fs, KnownFlag c) (hf : flagFeatures fs = []) : Means ⟨text "ab|[c-e]*$", fs⟩ noOptions sampleTree :=
  ⟨h, hf.symm, show ∀ c ∈ text "ab|[c-e]*$", c < 128 by decide, by rw [noOptions_flavor]; exact sample_pattern, sample_ok⟩

theorem chars_self : ∀ {s : List Nat}, (∀ c ∈ s, c ≠ 34 ∧ c ≠ 92 ∧ c ≠ 10 ∧ c ≠ 0) → Chars false s s
  | [], _ => .nil
  | c :: s, h => .plain (h c (by simp)).1 (h c (by simp)).2.1 (h c (by simp)).2.2.1 (h c (by simp)).2.2.2 (chars_self fun d hd => h d (by simp [hd]))

theorem arg_self {w s : List Nat} (hw : White w) (h : ∀ c ∈ s, c ≠ 34 ∧ c ≠ 92 ∧ c ≠ 10 ∧ c ≠ 0) (hl : s.getLast? ≠ some 92) : Arg (w ++ 34 :: (s ++ [34])) s := by
  have := Arg.text hw (chars_self h) hl (.blank (w := []) (by simp [White]))
  rwa [List.append_nil] at this

/-- `"ab|[c-e]*$", "s", "ab|[c-e]*$", "ur")` satisfies the hypotheses of `C69_inline`, wherever the blocks are. -/
theorem C69_case : Args (text "\"ab|[c-e]*$\", \"s\",\n\"ab|[c-e]*$\", \"ur\")") [text "ab|[c-e]*$", text "s", text "ab|[c-e]*$", text "ur"] ∧
    items [text "ab|[c-e]*$", text "s", text "ab|[c-e]*$", text "ur"] = some sampleItems ∧
    (∃ Ls, AllMean sampleItems Ls) ∧ sampleItems.length ≤ 53000 ∧ (∀ y ∈ sampleItems, 10 ∉ y.pattern) ∧ (∃ null addr, Allocates null addr) := by
  refine ⟨?_, rfl, ⟨_, .cons (sample_means _ (by decide) (by decide)) (.cons (sample_means _ (by decide) (by decide)) .nil)⟩, by decide, by decide, ?_⟩
  · have h1 : Arg (text "\"ab|[c-e]*$\"") (text "ab|[c-e]*$") := by
      have h : Arg ([] ++ 34 :: (text "ab|[c-e]*$" ++ [34])) (text "ab|[c-e]*$") := arg_self (by simp [White]) (by decide) (by decide)
      rwa [show [] ++ 34 :: (text "ab|[c-e]*$" ++ [34]) = text "\"ab|[c-e]*$\"" by decide] at h
    have h2 : Arg (text " \"s\"") (text "s") := by
      have h : Arg ([32] ++ 34 :: (text "s" ++ [34])) (text "s") := arg_self (by simp [White]) (by decide) (by decide)
      rwa [show [32] ++ 34 :: (text "s" ++ [34]) = text " \"s\"" by decide] at h
    have h3 : Arg (text "\n\"ab|[c-e]*$\"") (text "ab|[c-e]*$") := by
      have h : Arg ([10] ++ 34 :: (text "ab|[c-e]*$" ++ [34])) (text "ab|[c-e]*$") := arg_self (by simp [White]) (by decide) (by decide)
      rwa [show [10] ++ 34 :: (text "ab|[c-e]*$" ++ [34]) = text "\n\"ab|[c-e]*$\"" by decide] at h
    have h4 : Arg (text " \"ur\"") (text "ur") := by
      have h : Arg ([32] ++ 34 :: (text "ur" ++ [34])) (text "ur") := arg_self (by simp [White]) (by decide) (by decide)
      rwa [show [32] ++ 34 :: (text "ur" ++ [34]) = text " \"ur\"" by decide] at h
    have h := Args.more h1 (.more h2 (.more h3 (.last h4)))
    rwa [show text "\"ab|[c-e]*$\"" ++ 44 :: (text " \"s\"" ++ 44 :: (text "\n\"ab|[c-e]*$\"" ++ 44 :: (text " \"ur\"" ++ [41]))) =
      text "\"ab|[c-e]*$\", \"s\",\n\"ab|[c-e]*$\", \"ur\")" by decide] at h
  · obtain ⟨s, hs⟩ := empty_scanner_exists scannerPolicy 4096
    exact ⟨s, fun n => 8192, by simp, by intro n; norm_num, 4096, by norm_num, by norm_num, hs⟩

/-- The first of them is not rejected. -/
theorem C69_case_automaton : ∃ f, (Item.mk (text "ab|[c-e]*$") (text "s")).automaton = .ok f ∧ f.Lang = itemLanguage ⟨text "ab|[c-e]*$", text "s"⟩ sampleTree := by
  rcases C69_automaton (sample_means (text "s") (by decide) (by decide)) with ⟨f, h1, -, h2⟩ | ⟨-, h | h⟩
  · exact ⟨f, h1, h2⟩
  · cases h
  · exact absurd h (by decide)

end Pire.Props
