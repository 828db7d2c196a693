import Verif.Model.Samples
import Verif.Spec.Samples
import Verif.Props.Inline
import Verif.Props.EasyCopy

/-!
# C71: the sample programs `pigrep` and `blacklist`
-/

namespace Pire.Props

open Pire Pire.Lex Pire.Parse Pire.Enc Pire.Scn Pire.Multi Pire.Fsm Pire.Io Pire.Samples Easy
open Pire.Spec

/-! ### Lines and words -/

theorem linesOf_append {l : List Nat} (h : 10 ∉ l) (s : List Nat) : ∀ cur, linesOf cur (l ++ s) = linesOf (cur ++ l) s := by
  induction l with
  | nil => intro cur; simp
  | cons c l ih =>
    intro cur
    rw [List.cons_append, linesOf, if_neg (by rintro rfl; simp at h), ih (fun hm => h (by simp [hm])), List.append_assoc]
    rfl

/-- `getline` yields the lines of a text. -/
theorem C71_lines {s : List Nat} {ls : List (List Nat)} (h : Lines s ls) : linesOf [] s = ls := by
  induction h with
  | nil => rfl
  | last h0 h1 =>
    have := linesOf_append h1 [] []
    rw [List.append_nil] at this
    rw [this, linesOf, List.nil_append, if_neg h0]
  | line h1 _ ih => rw [linesOf_append h1, linesOf, if_pos rfl, ih]; rfl

/-- Every text consists of lines. -/
theorem C71_lines_exist (s : List Nat) : ∃ ls, Lines s ls := by
  have key : ∀ (s l : List Nat), 10 ∉ l → ∃ ls, Lines (l ++ s) ls := by
    intro s
    induction s with
    | nil =>
      intro l hl
      rw [List.append_nil]
      by_cases h : l = []
      · subst h; exact ⟨_, .nil⟩
      · exact ⟨_, .last h hl⟩
    | cons c s ih =>
      intro l hl
      by_cases hc : c = 10
      · obtain ⟨ls, h⟩ := ih [] (by simp)
        subst hc; exact ⟨_, .line hl h⟩
      · obtain ⟨ls, h⟩ := ih (l ++ [c]) (by simp [hl, Ne.symm hc])
        rw [List.append_assoc] at h
        exact ⟨ls, h⟩
  exact key s [] (by simp)

theorem blank_iff (c : Nat) : blank c = true ↔ IsBlank c := by
  unfold blank IsBlank
  simp

theorem wordsOf_append {l : List Nat} (h : ∀ c ∈ l, ¬ IsBlank c) (s : List Nat) : ∀ cur, wordsOf cur (l ++ s) = wordsOf (cur ++ l) s := by
  induction l with
  | nil => intro cur; simp
  | cons c l ih =>
    intro cur
    rw [List.cons_append, wordsOf, if_neg (fun hb => h c (by simp) ((blank_iff c).1 hb)), ih (fun d hd => h d (by simp [hd])), List.append_assoc]
    rfl

theorem wordsOf_blank {b : List Nat} (h : ∀ c ∈ b, IsBlank c) (s : List Nat) : wordsOf [] (b ++ s) = wordsOf [] s := by
  induction b with
  | nil => rfl
  | cons c b ih =>
    rw [List.cons_append, wordsOf, if_pos ((blank_iff c).2 (h c (by simp))), if_pos rfl, ih (fun d hd => h d (by simp [hd]))]

/-- `>>` yields the words of a text. -/
theorem C71_words {s : List Nat} {ws : List (List Nat)} (h : Words s ws) : wordsOf [] s = ws := by
  induction h with
  | blank h =>
    have := wordsOf_blank h []
    rw [List.append_nil] at this
    rw [this]; rfl
  | last hb h0 h1 =>
    rw [wordsOf_blank hb]
    have := wordsOf_append h1 [] []
    rw [List.append_nil] at this
    rw [this, wordsOf, List.nil_append, if_neg h0]
  | @word b w s c ws hb h0 h1 hc _ ih =>
    rw [wordsOf, if_pos ((blank_iff c).2 hc), if_pos rfl] at ih
    rw [List.append_assoc, wordsOf_blank hb, wordsOf_append h1, wordsOf, if_pos ((blank_iff c).2 hc), List.nil_append, if_neg h0, ih]

/-- Every text consists of words. -/
theorem C71_words_exist (s : List Nat) : ∃ ws, Words s ws := by
  have key : ∀ (s b w : List Nat), (∀ c ∈ b, IsBlank c) → (∀ c ∈ w, ¬ IsBlank c) → ∃ ws, Words (b ++ w ++ s) ws := by
    intro s
    induction s with
    | nil =>
      intro b w hb hw
      rw [List.append_nil]
      by_cases h : w = []
      · exact ⟨_, .blank (by rw [h, List.append_nil]; exact hb)⟩
      · exact ⟨_, .last hb h hw⟩
    | cons c s ih =>
      intro b w hb hw
      by_cases hc : IsBlank c
      · by_cases h : w = []
        · obtain ⟨ws, h1⟩ := ih (b ++ [c]) [] (by simp only [List.mem_append, List.mem_singleton]; rintro d (hd | rfl); exacts [hb d hd, hc]) (by simp)
          exact ⟨ws, by simpa [h] using h1⟩
        · obtain ⟨ws, h1⟩ := ih [c] [] (by simpa using hc) (by simp)
          exact ⟨_, .word hb h hw hc (by simpa using h1)⟩
      · obtain ⟨ws, h1⟩ := ih b (w ++ [c]) hb (by simp only [List.mem_append, List.mem_singleton]; rintro d (hd | rfl); exacts [hw d hd, hc])
        exact ⟨ws, by simpa using h1⟩
  exact key s [] [] (by simp) (by simp)

/-! ### pigrep -/

/-- Strings are where they are said to be. -/
def InMemory (at_ : Strings) : Prop := ∀ l : List Nat, (∀ c ∈ l, c < 256) → bytesAt (at_ l).1 (at_ l).2 l.length = l

theorem matched_iff {isa : Isa} (hisa : Platform isa) {at_ : Strings} (ha : InMemory at_) {s : Multi} {L : Language Nat} (hv : Valid scannerPolicy s)
    (hR : Recognizes scannerPolicy s [L]) {l : List Nat} (hl : ∀ c ∈ l, c < 256) : matched isa at_ s l = true ↔ BeginMark :: l ++ [EndMark] ∈ L := by
  unfold matched
  rw [runner_valid hisa hv hR _ (Nat.le_add_right _ _), Nat.add_sub_cancel_left, ha l hl]
  rw [mem_anyOf]
  simp

variable {opts : Opts} {raw s : List Nat} {ts : List Tok} {t : Alt} {isa : Isa} {at_ : Strings} {base : Nat}

/-- Too big for determinisation: more than 200001 words lead to pairwise different sets of states. -/
def TooBig (f : Fsm) : Prop := ∃ ws : List (List Nat), ws.length = 200002 ∧ (∀ w ∈ ws, IsWord w) ∧
  (ws.map fun w => {q | Run f.removeEpsilons.Edge f.initial w q}).Nodup

/-- The pattern, or the automaton for what it occurs in, is too big: the first can happen only with `~`, `&` or `[^...]`. -/
def GivesUp (opts : Opts) (s : List Nat) (t : Alt) : Prop :=
  t.plain = false ∨ ∃ f, parsePattern opts.features opts.encoding s = .ok f ∧ TooBig f.surround

/-- The scanner of `pigrep`, if it can be made, finds the lines that a word of the pattern occurs in. -/
theorem C71_pigrep_line (ho : opts.added.Nodup) (hd : opts.encoding.decode raw = some (some s)) (hp : Pattern (easyOptions opts ho).flavor s ts) (ht : t.spell = ts)
    (ok : t.Ok) (hb : base % 8 = 0) (hb' : base ≤ 2 ^ 63) :
    (grepScanner base opts raw = .throws ∧ GivesUp opts s t) ∨ ∃ sc, grepScanner base opts raw = .ok sc ∧ ∀ isa, Platform isa → ∀ at_, InMemory at_ → ∀ line : List Nat,
      (∀ c ∈ line, c < 256) → (matched isa at_ sc line = true ↔ Occurs (t.den (codec opts.encoding)) line) := by
  rcases C43_pattern_language hp ht ok opts.encoding with ⟨f, hf, hg, hL⟩ | ⟨hpl, hf⟩
  swap
  · have hf : parsePattern opts.features opts.encoding s = .throws := hf
    refine .inl ⟨?_, .inl hpl⟩
    unfold grepScanner
    rw [hd]
    dsimp only
    rw [ok_bind, hf]
    rfl
  have hf : parsePattern opts.features opts.encoding s = .ok f := hf
  unfold grepScanner
  rw [hd]
  dsimp only
  rw [ok_bind, hf, ok_bind]
  cases hc : compile scannerPolicy base f.surround with
  | none => exact .inl ⟨rfl, .inr ⟨f, hf, C23_throws_only_if_too_big hg.surround hc⟩⟩
  | some sc =>
    refine .inr ⟨sc, rfl, ?_⟩
    have htag : f.TagsClean := (kept_tags _ or_mod4).parsePattern _ _ f hf
    have hts : f.surround.TagsClean := Fsm.TagsIn.of_eq htag (surround_tags f)
    have hp : Placed scannerPolicy base f.surround sc := ⟨hb, compile_bufSize scanner_typedef.real hg.surround hc hb' rfl, by rw [show f.surround.determined = false from rfl]; simp⟩
    obtain ⟨v, e, r⟩ := compile_spec scanner_typedef.real hg.surround hts hc hp.align hp.space hp.small
    intro isa hisa at_ ha line hl
    rw [matched_iff hisa ha v r hl, C10_surround hg.wf, hL]
    have hw := framed_word hl
    unfold Occurs
    constructor
    · rintro ⟨u, x, v, h1, -, h2, -⟩; exact ⟨u, x, v, h1, h2⟩
    · rintro ⟨u, x, v, h1, h2⟩
      rw [h1] at hw
      exact ⟨u, x, v, h1, fun c hc => hw c (by simp [hc]), h2, fun c hc => hw c (by simp [hc])⟩


/-- How `pigrep` is told an option. -/
def spelled : Opt → List Nat
  | .i => [45, 105]
  | .utf8 => [45, 117]
  | .andNot => [45, 120]
  | .latin1 => []

/-- The options, a pattern (after `-e` or not beginning with a dash), and files the first of which is not one more option. -/
inductive CommandLine : Opts → List Nat → List (List Nat) → List (List Nat) → Prop
  | pattern {p : List Nat} {files : List (List Nat)} : p.head? ≠ some 45 → (∀ f, files.head? = some f → f ≠ [45, 105] ∧ f ≠ [45, 117] ∧ f ≠ [45, 120]) →
      CommandLine [] p files (p :: files)
  | e {p : List Nat} {files : List (List Nat)} : (∀ f, files.head? = some f → f ≠ [45, 105] ∧ f ≠ [45, 117] ∧ f ≠ [45, 120]) → CommandLine [] p files ([45, 101] :: p :: files)
  | option {o : Opt} {opts : Opts} {p : List Nat} {files args : List (List Nat)} : o ≠ .latin1 → CommandLine opts p files args →
      CommandLine (o :: opts) p files (spelled o :: args)

theorem arguments_cons (a : Arguments) (x : List Nat) (xs : List (List Nat)) : arguments a (x :: xs) =
    if x = [45, 105] then arguments { a with opts := a.opts ++ [.i] } xs
    else if x = [45, 117] then arguments { a with opts := a.opts ++ [.utf8] } xs
    else if x = [45, 120] then arguments { a with opts := a.opts ++ [.andNot] } xs
    else if x = [45, 101] ∧ a.pattern = none then
      match xs with
      | p :: ys => arguments { a with pattern := some p } ys
      | [] => { a with files := [x] }
    else if x.head? = some 45 then { a with files := x :: xs }
    else if a.pattern = none then arguments { a with pattern := some x } xs
    else { a with files := x :: xs } := by
  cases xs <;> rw [arguments.eq_def]

theorem arguments_files (a : Arguments) {p : List Nat} {files : List (List Nat)} (hp : a.pattern = some p) (hf : a.files = [])
    (h : ∀ f, files.head? = some f → f ≠ [45, 105] ∧ f ≠ [45, 117] ∧ f ≠ [45, 120]) : arguments a files = ⟨a.opts, some p, files⟩ := by
  cases files with
  | nil =>
    rw [arguments]
    obtain ⟨o, q, fs⟩ := a
    simp only at hp hf
    rw [hp, hf]
  | cons f fs =>
    obtain ⟨h1, h2, h3⟩ := h f rfl
    rw [arguments_cons, if_neg h1, if_neg h2, if_neg h3, if_neg (by rw [hp]; rintro ⟨-, h⟩; cases h), hp, if_neg (by simp : ¬ some p = none)]
    split <;> rfl

/-- The command line is understood. -/
theorem C71_pigrep_arguments {opts : Opts} {p : List Nat} {files args : List (List Nat)} (h : CommandLine opts p files args) :
    arguments ⟨[], none, []⟩ args = ⟨opts, some p, files⟩ := by
  have key : ∀ pre : Opts, arguments ⟨pre, none, []⟩ args = ⟨pre ++ opts, some p, files⟩ := by
    induction h with
    | @pattern p files h1 h2 =>
      intro pre
      have hn : ∀ c, p ≠ [45, c] := by rintro c rfl; simp at h1
      rw [arguments_cons, if_neg (hn _), if_neg (hn _), if_neg (hn _), if_neg (by rintro ⟨h, -⟩; exact hn _ h), if_neg h1, if_pos rfl,
        arguments_files _ rfl rfl h2, List.append_nil]
    | @e p files h2 =>
      intro pre
      rw [arguments_cons, if_neg (by decide), if_neg (by decide), if_neg (by decide), if_pos ⟨rfl, rfl⟩]
      dsimp only
      rw [arguments_files _ rfl rfl h2, List.append_nil]
    | @option o opts p files args h1 _ ih =>
      intro pre
      cases o with
      | latin1 => exact absurd rfl h1
      | i => rw [spelled, arguments_cons, if_pos rfl, ih, List.append_assoc]; rfl
      | utf8 => rw [spelled, arguments_cons, if_neg (by decide), if_pos rfl, ih, List.append_assoc]; rfl
      | andNot => rw [spelled, arguments_cons, if_neg (by decide), if_neg (by decide), if_pos rfl, ih, List.append_assoc]; rfl
  exact key []

open Classical in
/-- These of the lines, with something before each of them. -/
noncomputable def printed (P : List Nat → Prop) (pre : List Nat) (lines : List (List Nat)) : List Nat := (lines.filter fun l => decide (P l)).flatMap fun l => pre ++ l ++ [10]

theorem lines_bytes {s : List Nat} {ls : List (List Nat)} (h : Lines s ls) : ∀ l ∈ ls, ∀ c ∈ l, c ∈ s := by
  induction h with
  | nil => simp
  | last => simp
  | line h1 _ ih =>
    intro l hl c hc
    rcases List.mem_cons.1 hl with rfl | hl
    · simp [hc]
    · have := ih l hl c hc
      simp [this]

theorem grepStream_eq {P : List Nat → Prop} {sc : Multi} (h : ∀ line : List Nat, (∀ c ∈ line, c < 256) → (matched isa at_ sc line = true ↔ P line)) {input : List Nat}
    (hi : ∀ c ∈ input, c < 256) {ls : List (List Nat)} (hl : Lines input ls) (pre : List Nat) : grepStream isa at_ sc pre input = printed P pre ls := by
  unfold grepStream printed
  rw [C71_lines hl]
  congr 1
  refine List.filter_congr fun l hm => ?_
  have := h l fun c hc => hi c (lines_bytes hl l hm c hc)
  by_cases hx : P l
  · simp [hx, this.2 hx]
  · have : ¬ matched isa at_ sc l = true := fun h' => hx (this.1 h')
    simpa [hx] using this

/-- The name a file is printed with. -/
def shownName (f : List Nat) : List Nat := if f = [45] then [40, 115, 116, 100, 105, 110, 41] else f

/-- What is read from it: `-` is the standard input. -/
def readFrom (file : List Nat → Option (List Nat)) (stdin : List Nat) (f : List Nat) : Option (List Nat) := if f = [45] then some stdin else file f

/-- The lines out of these files with those `P` holds for; with the name of the file if there are others. -/
noncomputable def printedFiles (P : List Nat → Prop) (lines : List Nat → List (List Nat)) (read : List Nat → Option (List Nat)) (one : Bool) (files : List (List Nat)) : List Nat :=
  files.flatMap fun f => printed P (if one then [] else shownName f ++ [58, 32]) (lines ((read f).getD []))

theorem grepFiles_eq {P : List Nat → Prop} {sc : Multi} (h : ∀ line : List Nat, (∀ c ∈ line, c < 256) → (matched isa at_ sc line = true ↔ P line))
    {lines : List Nat → List (List Nat)} (hl : ∀ s, Lines s (lines s)) {file : List Nat → Option (List Nat)} (hf : ∀ f s, file f = some s → ∀ c ∈ s, c < 256) (one : Bool) :
    ∀ (files : List (List Nat)) (stdin : List Nat), (∀ c ∈ stdin, c < 256) → files.count [45] ≤ 1 →
      (∀ f ∈ files, readFrom file stdin f ≠ none) → ∀ more stdin', (∀ f ∈ more.head?, f ≠ [45] ∧ file f = none) → stdin' = stdin →
      grepFiles isa at_ sc file one stdin (files ++ more) = (printedFiles P lines (readFrom file stdin') one files, more.isEmpty) := by
  intro files
  induction files with
  | nil =>
    intro stdin _ _ _ more stdin' hm _
    cases more with
    | nil => rfl
    | cons f fs =>
      obtain ⟨h1, h2⟩ := hm f (by simp)
      rw [List.nil_append, grepFiles, if_neg h1, h2]
      rfl
  | cons f fs ih =>
    rintro _ hs hc hr more stdin hm rfl
    by_cases hd : f = [45]
    · subst hd
      have h0 : [45] ∉ fs := by
        rw [List.count_cons_self] at hc
        exact List.count_eq_zero.1 (by omega)
      rw [List.cons_append, grepFiles, if_pos rfl]
      have e : ∀ s, printedFiles P lines (readFrom file s) one fs = printedFiles P lines (readFrom file stdin) one fs := by
        intro s
        unfold printedFiles
        refine List.flatMap_congr fun f hf => ?_
        have : f ≠ [45] := fun hx => h0 (hx ▸ hf)
        unfold readFrom
        rw [if_neg this, if_neg this]
      have := ih [] (by simp) (by rw [List.count_eq_zero.2 h0]; omega) (fun f hf => by
        have hn : f ≠ [45] := fun hx => h0 (hx ▸ hf)
        have := hr f (by simp [hf])
        unfold readFrom at this ⊢
        rw [if_neg hn] at this ⊢
        exact this) more [] hm rfl
      rw [this, e, grepStream_eq h hs (hl stdin)]
      rfl
    · rw [List.cons_append, grepFiles, if_neg hd]
      have hrf := hr f (by simp)
      unfold readFrom at hrf
      rw [if_neg hd] at hrf
      cases hx : file f with
      | none => exact absurd hx hrf
      | some x =>
        dsimp only
        rw [ih stdin hs (by rw [List.count_cons_of_ne hd] at hc; exact hc) (fun g hg => hr g (by simp [hg])) more stdin hm rfl, grepStream_eq h (hf f x hx) (hl x)]
        unfold printedFiles
        rw [List.flatMap_cons]
        simp only [readFrom, shownName, if_neg hd, hx, Option.getD_some]

variable {stdin : List Nat} {file : List Nat → Option (List Nat)} {files args : List (List Nat)} {lines : List Nat → List (List Nat)}

/-- What `pigrep` prints: the lines that a word of the pattern occurs in. If there are several files, each with the name of its file; if one cannot be opened, those of the
files before it. It fails without printing anything if the scanner cannot be made. -/
theorem C71_pigrep (hcl : CommandLine opts raw files args) (ho : opts.added.Nodup) (hd : opts.encoding.decode raw = some (some s))
    (hp : Pattern (easyOptions opts ho).flavor s ts) (ht : t.spell = ts) (ok : t.Ok) (hb : base % 8 = 0) (hb' : base ≤ 2 ^ 63) (hisa : Platform isa) (ha : InMemory at_)
    (hl : ∀ s, Lines s (lines s)) (hf : ∀ f s, file f = some s → ∀ c ∈ s, c < 256) (hs : ∀ c ∈ stdin, c < 256) (hc : files.count [45] ≤ 1) :
    (pigrep isa at_ base file args stdin = .ok ([], false) ∧ GivesUp opts s t) ∨
    (files = [] ∧ pigrep isa at_ base file args stdin = .ok (printed (Occurs (t.den (codec opts.encoding))) [] (lines stdin), true)) ∨
    (∃ good more, files = good ++ more ∧ files ≠ [] ∧ (∀ f ∈ good, readFrom file stdin f ≠ none) ∧ (∀ f ∈ more.head?, readFrom file stdin f = none) ∧
      pigrep isa at_ base file args stdin =
        .ok (printedFiles (Occurs (t.den (codec opts.encoding))) lines (readFrom file stdin) (decide (files.length = 1)) good, more.isEmpty)) := by
  unfold pigrep
  rw [C71_pigrep_arguments hcl]
  dsimp only
  rcases C71_pigrep_line ho hd hp ht ok hb hb' with ⟨e, hx⟩ | ⟨sc, e, hm⟩
  · rw [e]; exact .inl ⟨rfl, hx⟩
  rw [e]
  dsimp only
  have hm := hm isa hisa at_ ha
  by_cases h0 : files = []
  · right; left
    rw [if_pos h0, grepStream_eq hm hs (hl stdin)]
    exact ⟨h0, rfl⟩
  · right; right
    rw [if_neg h0]
    obtain ⟨good, more, e1, e2, e3⟩ : ∃ good more, files = good ++ more ∧ (∀ f ∈ good, readFrom file stdin f ≠ none) ∧ (∀ f ∈ more.head?, readFrom file stdin f = none) := by
      clear * -
      induction files with
      | nil => exact ⟨[], [], rfl, by simp, by simp⟩
      | cons f fs ih =>
        by_cases h : readFrom file stdin f = none
        · exact ⟨[], f :: fs, rfl, by simp, by simpa using h⟩
        · obtain ⟨g, m, rfl, h2, h3⟩ := ih
          exact ⟨f :: g, m, rfl, by simp only [List.mem_cons]; rintro x (rfl | hx); exacts [h, h2 x hx], h3⟩
    refine ⟨good, more, e1, h0, e2, e3, ?_⟩
    have hcg : good.count [45] ≤ 1 := by rw [e1, List.count_append] at hc; omega
    have := grepFiles_eq hm hl hf (files.length == 1) good stdin hs hcg e2 more stdin (fun f hx => by
      have := e3 f hx
      unfold readFrom at this
      by_cases hd : f = [45]
      · rw [if_pos hd] at this; cases this
      · rw [if_neg hd] at this; exact ⟨hd, this⟩) rfl
    rw [← e1] at this
    rw [this]
    simp only [beq_eq_decide]

/-! ### blacklist -/

/-- `[A-Za-z0-9\-]`. -/
def labelChars : Finset Nat := Finset.Icc 65 90 ∪ Finset.Icc 97 122 ∪ Finset.Icc 48 57 ∪ {45}

/-- `^([a-z]+://)?([A-Za-z0-9\-]+\.)*`. -/
def beforeTree : Alt :=
  .one (.one (.one (.snoc (.snoc (.snoc .nil (.one .bol))
    (.rep (.group (.one (.one (.one (.snoc (.snoc (.snoc (.snoc .nil (.rep (.letters (Finset.Icc 97 122) false) 1 none)) (.one (.letters {58} false)))
      (.one (.letters {47} false))) (.one (.letters {47} false))))))) 0 (some 1)))
    (.rep (.group (.one (.one (.one (.snoc (.snoc .nil (.rep (.letters labelChars false) 1 none)) (.one (.letters {46} false))))))) 0 none))))

/-- `(/.*)?$`. -/
def behindTree : Alt :=
  .one (.one (.one (.snoc (.snoc .nil
    (.rep (.group (.one (.one (.one (.snoc (.snoc .nil (.one (.letters {47} false))) (.rep .dot 0 none)))))) 0 (some 1))) (.one .eol))))

theorem before_parsed : parsePattern defaultFeatures .latin1 before = evalAlt .latin1 beforeTree :=
  parsePattern_tree (ts := [.bol, .opn, .letters (Finset.Icc 97 122) false, .count 1 none, .letters {58} false, .letters {47} false, .letters {47} false, .cls,
    .count 0 (some 1), .opn, .letters labelChars false, .count 1 none, .letters {46} false, .cls, .count 0 none]) (by decide +kernel) rfl

theorem behind_parsed : parsePattern defaultFeatures .latin1 behind = evalAlt .latin1 behindTree :=
  parsePattern_tree (ts := [.opn, .letters {47} false, .dot, .count 0 none, .cls, .count 0 (some 1), .eol]) (by decide +kernel) rfl

theorem labelChars_iff {c : Nat} : c ∈ labelChars ↔ LabelChar c := by
  unfold labelChars LabelChar
  simp only [Finset.mem_union, Finset.mem_Icc, Finset.mem_singleton]
  omega

theorem labelChars_lt {c : Nat} (h : c ∈ labelChars) : c < 128 := by
  have := labelChars_iff.1 h
  unfold LabelChar at this
  omega

/-- One letter. -/
def oneOf (p : Nat → Prop) : Language Nat := {w | ∃ c, p c ∧ w = [c]}

theorem mem_oneOf {p : Nat → Prop} {w : List Nat} : w ∈ oneOf p ↔ ∃ c, p c ∧ w = [c] := Iff.rfl

theorem charsOf_ascii {cs : Finset Nat} (h : ∀ c ∈ cs, c < 128) : Codec.ascii.charsOf cs = oneOf (· ∈ cs) := by
  ext w
  show (∃ c ∈ cs, w = Codec.ascii.enc c ∧ w ≠ []) ↔ ∃ c, c ∈ cs ∧ w = [c]
  constructor
  · rintro ⟨c, hc, e, -⟩
    have : c < 0x80 := h c hc
    exact ⟨c, hc, by rw [e]; simp [Codec.ascii, this]⟩
  · rintro ⟨c, hc, e⟩
    have : c < 0x80 := h c hc
    exact ⟨c, hc, by rw [e]; simp [Codec.ascii, this], by rw [e]; simp⟩

theorem oneOf_pow {p : Nat → Prop} : ∀ (n : Nat) (w : List Nat), w ∈ oneOf p ^ n ↔ w.length = n ∧ ∀ c ∈ w, p c := by
  intro n
  induction n with
  | zero =>
    intro w
    rw [pow_zero, Language.mem_one]
    constructor
    · rintro rfl; simp
    · rintro ⟨h, -⟩; exact List.length_eq_zero_iff.1 h
  | succ n ih =>
    intro w
    rw [pow_succ', Language.mem_mul]
    constructor
    · rintro ⟨a, ⟨c, hc, rfl⟩, b, hb, rfl⟩
      obtain ⟨h1, h2⟩ := (ih b).1 hb
      refine ⟨by simp [h1], ?_⟩
      simp only [List.cons_append, List.nil_append, List.mem_cons]
      rintro d (rfl | hd)
      exacts [hc, h2 d hd]
    · rintro ⟨h1, h2⟩
      cases w with
      | nil => simp at h1
      | cons c w =>
        exact ⟨[c], ⟨c, h2 c (by simp), rfl⟩, w, (ih w).2 ⟨by simpa using h1, fun d hd => h2 d (by simp [hd])⟩, rfl⟩

theorem repeated_oneOf {p : Nat → Prop} {lo : Nat} {w : List Nat} : w ∈ repeated (oneOf p) lo none ↔ lo ≤ w.length ∧ ∀ c ∈ w, p c := by
  constructor
  · rintro ⟨n, h1, -, h2⟩
    obtain ⟨h3, h4⟩ := (oneOf_pow n w).1 h2
    exact ⟨by omega, h4⟩
  · rintro ⟨h1, h2⟩
    exact ⟨w.length, h1, by simp, (oneOf_pow _ w).2 ⟨rfl, h2⟩⟩

theorem repeated_optional {L : Language Nat} {w : List Nat} : w ∈ repeated L 0 (some 1) ↔ w = [] ∨ w ∈ L := by
  constructor
  · rintro ⟨n, -, h1, h2⟩
    have := h1 1 rfl
    interval_cases n
    · rw [pow_zero, Language.mem_one] at h2; exact .inl h2
    · rw [pow_one] at h2; exact .inr h2
  · rintro (rfl | h)
    · exact ⟨0, by omega, by simp, by rw [pow_zero]; exact Language.nil_mem_one⟩
    · exact ⟨1, by omega, by simp, by rw [pow_one]; exact h⟩

theorem oneOf_singleton {c : Nat} {w : List Nat} : w ∈ oneOf (· ∈ ({c} : Finset Nat)) ↔ w = [c] := by
  rw [mem_oneOf]; simp

theorem ascii_one {w : List Nat} : w ∈ Codec.ascii.one ↔ w ∈ oneOf (· < 256) := by
  show w ∈ anyByte ↔ _
  rw [mem_oneOf]
  rfl

theorem subdomains_iff {w : List Nat} {p : Nat → Prop} {L : Language Nat} (hp : ∀ c, p c ↔ LabelChar c)
    (hL : ∀ w, w ∈ L ↔ ∃ l : List Nat, l ≠ [] ∧ (∀ c ∈ l, p c) ∧ w = l ++ [46]) : w ∈ repeated L 0 none ↔ Subdomains w := by
  have key : ∀ n (w : List Nat), w ∈ L ^ n → Subdomains w := by
    intro n
    induction n with
    | zero => intro w h; rw [pow_zero, Language.mem_one] at h; rw [h]; exact .none
    | succ n ih =>
      intro w h
      rw [pow_succ', Language.mem_mul] at h
      obtain ⟨a, ha, b, hb, rfl⟩ := h
      obtain ⟨l, h1, h2, rfl⟩ := (hL a).1 ha
      rw [List.append_assoc]
      exact .label h1 (fun c hc => (hp c).1 (h2 c hc)) (ih b hb)
  constructor
  · rintro ⟨n, -, -, h⟩; exact key n w h
  · intro h
    suffices ∃ n, w ∈ L ^ n by obtain ⟨n, h⟩ := this; exact ⟨n, by omega, by simp, h⟩
    induction h with
    | none => exact ⟨0, by rw [pow_zero]; exact Language.nil_mem_one⟩
    | @label l s h1 h2 _ ih =>
      obtain ⟨n, h⟩ := ih
      refine ⟨n + 1, ?_⟩
      rw [pow_succ', Language.mem_mul]
      exact ⟨l ++ [46], (hL _).2 ⟨l, h1, fun c hc => (hp c).2 (h2 c hc), rfl⟩, s, h, by simp⟩

theorem before_language {w : List Nat} : w ∈ beforeTree.den .ascii ↔ ∃ a b, w = 258 :: (a ++ b) ∧ Scheme a ∧ Subdomains b := by
  have hs : ∀ w, w ∈ repeated (Term.den .ascii (.group (.one (.one (.one (.snoc (.snoc (.snoc (.snoc .nil (.rep (.letters (Finset.Icc 97 122) false) 1 none))
      (.one (.letters {58} false))) (.one (.letters {47} false))) (.one (.letters {47} false)))))))) 0 (some 1) ↔ Scheme w := by
    intro w
    rw [repeated_optional]
    simp only [Term.den, Alt.den, Conj.den, Neg.den, Cat.den, Iter.den]
    rw [charsOf_ascii (cs := Finset.Icc 97 122) (by intro c hc; have := (Finset.mem_Icc.1 hc).2; omega), charsOf_ascii (cs := {58}) (by simp),
      charsOf_ascii (cs := {47}) (by simp)]
    rw [one_mul]
    constructor
    · rintro (rfl | h)
      · exact .none
      · simp only [Language.mem_mul, oneOf_singleton, repeated_oneOf, Finset.mem_Icc] at h
        obtain ⟨a, ⟨a', ⟨l, ⟨h1, h2⟩, x, rfl, rfl⟩, y, rfl, rfl⟩, z, rfl, rfl⟩ := h
        have := Scheme.some (l := l) (by rintro rfl; simp at h1) h2
        simpa using this
    · intro h
      cases h with
      | none => exact .inl rfl
      | @some l h1 h2 =>
        right
        simp only [Language.mem_mul, oneOf_singleton, repeated_oneOf, Finset.mem_Icc]
        exact ⟨l ++ [58] ++ [47], ⟨l ++ [58], ⟨l, ⟨List.length_pos_iff.2 h1, h2⟩, [58], rfl, rfl⟩, [47], rfl, rfl⟩, [47], rfl, by simp⟩
  have hd : ∀ w, w ∈ repeated (Term.den .ascii (.group (.one (.one (.one (.snoc (.snoc .nil (.rep (.letters labelChars false) 1 none)) (.one (.letters {46} false)))))))) 0 none ↔
      Subdomains w := by
    intro w
    refine subdomains_iff (p := (· ∈ labelChars)) (fun c => labelChars_iff) fun w => ?_
    simp only [Term.den, Alt.den, Conj.den, Neg.den, Cat.den, Iter.den]
    rw [charsOf_ascii (fun c => labelChars_lt), charsOf_ascii (cs := {46}) (by simp), one_mul]
    simp only [Language.mem_mul, oneOf_singleton, repeated_oneOf]
    constructor
    · rintro ⟨l, ⟨h1, h2⟩, x, rfl, rfl⟩; exact ⟨l, by rintro rfl; simp at h1, h2, rfl⟩
    · rintro ⟨l, h1, h2, rfl⟩; exact ⟨l, ⟨List.length_pos_iff.2 h1, h2⟩, _, rfl, rfl⟩
  unfold beforeTree
  rw [Alt.den, Conj.den, Neg.den, Cat.den, Cat.den, Cat.den, Cat.den, one_mul, Iter.den, Iter.den, Iter.den]
  rw [Language.mem_mul]
  constructor
  · rintro ⟨x, hx, b, hb, rfl⟩
    rw [Language.mem_mul] at hx
    obtain ⟨y, hy, a, ha, rfl⟩ := hx
    have hy : y = [258] := hy
    subst hy
    exact ⟨a, b, by simp, (hs a).1 ha, (hd b).1 hb⟩
  · rintro ⟨a, b, rfl, ha, hb⟩
    refine ⟨[258] ++ a, ?_, b, (hd b).2 hb, by simp⟩
    rw [Language.mem_mul]
    exact ⟨[258], rfl, a, (hs a).2 ha, rfl⟩

theorem behind_language {w : List Nat} : w ∈ behindTree.den .ascii ↔ ∃ p, w = p ++ [259] ∧ Path p ∧ ∀ c ∈ p, c < 256 := by
  unfold behindTree
  rw [Alt.den, Conj.den, Neg.den, Cat.den, Cat.den, Cat.den, one_mul, Iter.den, Iter.den, Language.mem_mul]
  have hs : ∀ w, w ∈ repeated (Term.den .ascii (.group (.one (.one (.one (.snoc (.snoc .nil (.one (.letters {47} false))) (.rep .dot 0 none))))))) 0 (some 1) ↔
      Path w ∧ ∀ c ∈ w, c < 256 := by
    intro w
    rw [repeated_optional]
    simp only [Term.den, Alt.den, Conj.den, Neg.den, Cat.den, Iter.den]
    have e1 : Codec.ascii.one = oneOf (· < 256) := by ext w; exact ascii_one
    rw [charsOf_ascii (cs := {47}) (by simp), one_mul, e1]
    simp only [Language.mem_mul, oneOf_singleton, repeated_oneOf]
    constructor
    · rintro (rfl | ⟨x, rfl, b, ⟨-, hb⟩, rfl⟩)
      · exact ⟨.none, by simp⟩
      · refine ⟨.some b, ?_⟩
        simp only [List.cons_append, List.nil_append, List.mem_cons]
        rintro c (rfl | hc)
        exacts [by omega, hb c hc]
    · rintro ⟨h1, h2⟩
      cases h1 with
      | none => exact .inl rfl
      | some b => exact .inr ⟨[47], rfl, b, ⟨by omega, fun c hc => h2 c (by simp [hc])⟩, rfl⟩
  constructor
  · rintro ⟨p, hp, e, he, rfl⟩
    have he : e = [259] := he
    exact ⟨p, by rw [he], (hs p).1 hp⟩
  · rintro ⟨p, rfl, hp⟩
    exact ⟨p, (hs p).2 hp, [259], rfl, rfl⟩

theorem words_spec {s : List Nat} {ws : List (List Nat)} (h : Words s ws) : ∀ w ∈ ws, w ≠ [] ∧ ∀ c ∈ w, c ∈ s := by
  induction h with
  | blank => simp
  | last _ h0 _ =>
    intro w hw
    rw [List.mem_singleton.1 hw]
    exact ⟨h0, fun c hc => by simp [hc]⟩
  | word _ h0 _ _ _ ih =>
    intro w hw
    rcases List.mem_cons.1 hw with rfl | hw
    · exact ⟨h0, fun c hc => by simp [hc]⟩
    · obtain ⟨h1, h2⟩ := ih w hw
      refine ⟨h1, fun c hc => ?_⟩
      have := h2 c hc
      simp only [List.mem_append]
      exact .inr this

theorem parsed_tree {s : List Nat} {t : Alt} (e : parsePattern defaultFeatures .latin1 s = evalAlt .latin1 t) (ok : t.Ok) (hpl : t.plain = true) :
    ∃ f, parsePattern defaultFeatures .latin1 s = .ok f ∧ f.Good ∧ f.TagsClean ∧ f.Lang = t.den .ascii := by
  have := evalAlt_sat .latin1 t ok
  rw [← e, hpl] at this
  cases hr : parsePattern defaultFeatures .latin1 s with
  | ok f => rw [hr] at this; exact ⟨f, rfl, this.1, (kept_tags _ or_mod4).parsePattern _ _ f hr, this.2.1⟩
  | throws => rw [hr] at this; cases (this : true = false)
  | bad => rw [hr] at this; exact this.elim

theorem parsed_before : ∃ f, parsePattern defaultFeatures .latin1 before = .ok f ∧ f.Good ∧ f.TagsClean ∧ f.Lang = beforeTree.den .ascii := by
  have ok : beforeTree.Ok := by
    have h1 : ∀ d : Nat, d < 128 → ∀ c ∈ ({d} : Finset Nat), c < 0x200000 := by intro d hd c hc; rw [Finset.mem_singleton.1 hc]; omega
    have h2 : ∀ c ∈ Finset.Icc 97 122, c < 0x200000 := by intro c hc; have := (Finset.mem_Icc.1 hc).2; omega
    have h3 : ∀ c ∈ labelChars, c < 0x200000 := by intro c hc; have := labelChars_lt hc; omega
    simp only [beforeTree, Alt.Ok, Conj.Ok, Neg.Ok, Cat.Ok, Iter.Ok, Term.Ok, Iter.isEmpty, Term.isEmpty, Alt.isEmpty, Conj.isEmpty, Neg.isEmpty, Cat.isEmpty]
    refine ⟨⟨⟨trivial, trivial, trivial⟩, ⟨⟨⟨⟨⟨trivial, ⟨h2, ?_, ?_⟩, ?_⟩, h1 58 (by omega), trivial⟩, h1 47 (by omega), trivial⟩, h1 47 (by omega), trivial⟩, ?_, ?_⟩, ?_⟩,
      ⟨⟨⟨trivial, ⟨h3, ?_, ?_⟩, ?_⟩, h1 46 (by omega), trivial⟩, ?_, ?_⟩, ?_⟩ <;> simp
  exact parsed_tree before_parsed ok rfl

theorem parsed_behind : ∃ f, parsePattern defaultFeatures .latin1 behind = .ok f ∧ f.Good ∧ f.TagsClean ∧ f.Lang = behindTree.den .ascii := by
  have ok : behindTree.Ok := by
    have h1 : ∀ c ∈ ({47} : Finset Nat), c < 0x200000 := by intro c hc; rw [Finset.mem_singleton.1 hc]; omega
    simp only [behindTree, Alt.Ok, Conj.Ok, Neg.Ok, Cat.Ok, Iter.Ok, Term.Ok, Iter.isEmpty, Term.isEmpty, Alt.isEmpty, Conj.isEmpty, Neg.isEmpty, Cat.isEmpty]
    refine ⟨⟨trivial, ⟨⟨⟨trivial, h1, trivial⟩, ⟨trivial, ?_, ?_⟩, ?_⟩, ?_, ?_⟩, ?_⟩, trivial, trivial⟩ <;> simp
  exact parsed_tree behind_parsed ok rfl

theorem domains_fold (ds : List (List Nat)) (h : ∀ d ∈ ds, IsWord d) : ∀ f : Fsm, f.Good → f.TagsClean →
    (ds.foldl (fun re d => re.union (Fsm.init.appendStr d)) f).Good ∧ (ds.foldl (fun re d => re.union (Fsm.init.appendStr d)) f).TagsClean ∧
      ∀ w, w ∈ (ds.foldl (fun re d => re.union (Fsm.init.appendStr d)) f).Lang ↔ w ∈ f.Lang ∨ w ∈ ds := by
  induction ds with
  | nil => intro f h1 h2; exact ⟨h1, h2, by simp⟩
  | cons d ds ih =>
    intro f h1 h2
    have hd := h d (by simp)
    have hg : (Fsm.init.appendStr d).Good := appendStr_good Good.init init_raw hd
    have ht : (Fsm.init.appendStr d).TagsClean := Fsm.TagsIn.of_eq TagsIn.init (appendStr_tags _ _)
    obtain ⟨i1, i2, i3⟩ := ih (fun x hx => h x (by simp [hx])) (f.union (Fsm.init.appendStr d)) (h1.union hg) (TagsIn.union h2 ht)
    refine ⟨i1, i2, fun w => ?_⟩
    rw [List.foldl_cons, i3, C05_union h1.wf h1.coh h1.alt hg.wf hg.coh hg.alt, C02_literal_automaton hd]
    simp [or_assoc]

/-- The automaton of the dictionary accepts an address, between the marks, if it is in one of the domains. -/
theorem C71_blacklist_automaton {dict : List Nat} {ds : List (List Nat)} (hw : Words dict ds) (hb : ∀ c ∈ dict, c < 256) :
    ∃ f, blacklistFsm dict = .ok f ∧ Ready f ∧ ∀ url : List Nat, (∀ c ∈ url, c < 256) → (BeginMark :: url ++ [EndMark] ∈ f.Lang ↔ Listed ds url) := by
  obtain ⟨p, hp, gp, tp, lp⟩ := parsed_before
  obtain ⟨q, hq, gq, tq, lq⟩ := parsed_behind
  have hd : ∀ d ∈ ds, d ≠ [] ∧ ∀ c ∈ d, c < 256 := fun d hd => ⟨(words_spec hw d hd).1, fun c hc => hb c ((words_spec hw d hd).2 c hc)⟩
  obtain ⟨gr, tr, lr⟩ := domains_fold ds (fun d h c hc => ⟨by have := (hd d h).2 c hc; omega, by have := (hd d h).2 c hc; omega⟩) Fsm.makeFalse Good.makeFalse
    (fun q t hq => by cases hq)
  set re := ds.foldl (fun re d => re.union (Fsm.init.appendStr d)) Fsm.makeFalse with hre
  have lr : ∀ w, w ∈ re.Lang ↔ w ∈ ds := by
    intro w
    rw [lr, lang_makeFalse]
    constructor
    · rintro (h | h)
      · exact absurd h (Language.notMem_zero w)
      · exact h
    · exact .inr
  have nr : re.initial ∉ re.finals := fun hx => (hd [] ((lr []).1 ⟨re.initial, hx, .refl _⟩)).1 rfl
  have nq : q.initial ∉ q.finals := by
    intro hx
    have : [] ∈ q.Lang := ⟨q.initial, hx, .refl _⟩
    rw [lq, behind_language] at this
    obtain ⟨a, h, -⟩ := this
    simp at h
  have hL : ((p.concat re).concat q).Lang = p.Lang * re.Lang * q.Lang := by
    rw [lang_concat (gp.concat gr).wf (gp.concat gr).coh gq.wf gq.coh nq, lang_concat gp.wf gp.coh gr.wf gr.coh nr]
  refine ⟨(p.concat re).concat q, ?_, ⟨(gp.concat gr).concat gq, TagsIn.concat (TagsIn.concat tp tr) tq, rfl⟩, ?_⟩
  · unfold blacklistFsm
    rw [C71_words hw, hp, hq]
    rfl
  intro url hu
  rw [hL, lp, lq, Language.mem_mul]
  constructor
  · rintro ⟨x, hx, y, hy, e⟩
    rw [Language.mem_mul] at hx
    obtain ⟨a, ha, d, hd, rfl⟩ := hx
    obtain ⟨sc, sub, rfl, h1, h2⟩ := before_language.1 ha
    obtain ⟨pa, rfl, h3, -⟩ := behind_language.1 hy
    refine ⟨sc, sub, d, pa, ?_, h1, h2, (lr d).1 hd, h3⟩
    have e' : (sc ++ sub ++ d ++ pa) ++ [259] = url ++ [259] := by
      have e1 : 258 :: ((sc ++ sub ++ d ++ pa) ++ [259]) = 258 :: (url ++ [259]) := by
        refine Eq.trans ?_ e
        simp only [List.cons_append, List.append_assoc]
      exact (List.cons.inj e1).2
    exact (List.append_cancel_right e').symm
  · rintro ⟨sc, sub, d, pa, rfl, h1, h2, h3, h4⟩
    refine ⟨258 :: (sc ++ sub) ++ d, ?_, pa ++ [259], ?_, by simp [BeginMark, EndMark]⟩
    · rw [Language.mem_mul]
      exact ⟨_, before_language.2 ⟨sc, sub, rfl, h1, h2⟩, d, (lr d).2 h3, rfl⟩
    · exact behind_language.2 ⟨pa, rfl, h4, fun c hc => hu c (by simp [hc])⟩

open Classical in
/-- `blacklist -g` with a dictionary of domains and then `blacklist -u`: it prints the addresses, out of those it reads, that are in one of the domains. There is no
file, but an error, only if the automaton is too big. -/
theorem C71_blacklist {dict : List Nat} {ds : List (List Nat)} (hw : Words dict ds) (hb : ∀ c ∈ dict, c < 256) {base : Nat} (h8 : base % 8 = 0) (h63 : base ≤ 2 ^ 63)
    (pad : Nat → Fin 256) : (generate base pad dict = .throws ∧ ∃ f, blacklistFsm dict = .ok f ∧ TooBig f) ∨
    ∃ file, generate base pad dict = .ok file ∧ ∀ (isa : Isa) (at_ : Strings) (null : Multi) (mem : Mem) (ptr : Nat), Platform isa → InMemory at_ →
      ptr % 8 = 0 → ptr + 8 * file.length < 2 ^ 64 → memBytes mem ptr file.length = file →
      ∀ (input : List Nat) (urls : List (List Nat)), Words input urls → (∀ c ∈ input, c < 256) →
        use isa at_ null mem ptr file.length input = .ok ((urls.filter fun u => decide (Listed ds u)).flatMap fun u => u ++ [10]) := by
  obtain ⟨f, hf, hr, hL⟩ := C71_blacklist_automaton hw hb
  unfold generate
  rw [hf, ok_bind]
  cases hc : compile scannerPolicy base f with
  | none => exact .inl ⟨rfl, f, rfl, C23_throws_only_if_too_big hr.good hc⟩
  | some sc =>
    right
    have hp : Placed scannerPolicy base f sc := ⟨h8, compile_bufSize scanner_typedef.real hr.good hc h63 hr.flag, by rw [hr.flag]; simp⟩
    obtain ⟨v, e, r⟩ := compile_spec scanner_typedef.real hr.good hr.tags hc hp.align hp.space hp.small
    refine ⟨_, rfl, ?_⟩
    intro isa at_ null mem ptr hisa ha hp8 hps hm input urls hu hi
    have es : ∀ rnull tmp, save scannerPolicy pad rnull tmp sc = saveReloc scannerPolicy pad sc := fun _ _ => rfl
    obtain ⟨s', h1, h2, h3, -⟩ := C36_mmap_saved (null := null) (rnull := null) (tmp := 0) (pad := pad) scanner_typedef rfl v (C35_storable_compiled hc) e
      (mem := mem) (ptr := ptr) (size := (saveReloc scannerPolicy pad sc).length) hp8 hps (by rw [es]; exact hm) (by rw [es])
    unfold use
    rw [h1]
    dsimp only
    unfold Samples.filter
    rw [C71_words hu]
    suffices ef : urls.filter (matched isa at_ s') = urls.filter fun u => decide (Listed ds u) by rw [ef]
    refine List.filter_congr fun u hx => ?_
    have hub : ∀ c ∈ u, c < 256 := fun c hc => hi c ((words_spec hu u hx).2 c hc)
    have key := (matched_iff hisa ha h3 (h2.recognizes r) hub).trans (hL u hub)
    by_cases hl : Listed ds u
    · simp [hl, key.2 hl]
    · have : ¬ matched isa at_ s' u = true := fun h' => hl (key.1 h')
      simpa [hl] using this

/-! ### The hypotheses are met -/

/-- Every string alone in a memory. -/
def strings : Strings := fun l => (fun a => ⟨l.getD a 0 % 256, Nat.mod_lt _ (by omega)⟩, 0)

theorem bytesAt_getElem (mem : Mem) (n : Nat) : ∀ b, bytesAt mem b n = (List.range n).map fun i => (mem (b + i)).val := by
  induction n with
  | zero => intro b; rfl
  | succ n ih =>
    intro b
    rw [bytesAt, ih, List.range_succ_eq_map, List.map_cons, List.map_map]
    congr 1
    refine List.map_congr_left fun i _ => ?_
    simp only [Function.comp]
    rw [show b + 1 + i = b + i.succ by omega]

theorem strings_inMemory : InMemory strings := by
  intro l hl
  rw [bytesAt_getElem]
  refine List.ext_getElem (by simp) fun i h1 h2 => ?_
  rw [List.getElem_map, List.getElem_range]
  show l.getD (0 + i) 0 % 256 = l[i]
  rw [Nat.zero_add, List.getD_eq_getElem _ _ h2, Nat.mod_eq_of_lt (hl _ (List.getElem_mem h2))]

/-- Two lines, the second one without a line break; two words. -/
example : Lines (text "ab\nc d") [text "ab", text "c d"] ∧ Words (text " ab\nc ") [text "ab", text "c"] := by
  constructor
  · exact .line (l := text "ab") (by decide) (.last (by decide) (by decide))
  · refine .word (b := text " ") (w := text "ab") (c := 10) (s := text "c ") (by unfold IsBlank; decide) (by decide) (by unfold IsBlank; decide) (by unfold IsBlank; decide) ?_
    refine .word (b := [10]) (w := text "c") (c := 32) (s := []) (by unfold IsBlank; decide) (by decide) (by unfold IsBlank; decide) (by unfold IsBlank; decide) ?_
    exact .blank (by unfold IsBlank; decide)

/-- `pigrep -u -i x y -`, `pigrep -x -e -x y`. -/
example : CommandLine [.utf8, .i] (text "x") [text "y", text "-"] [text "-u", text "-i", text "x", text "y", text "-"] ∧
    CommandLine [.andNot] (text "-x") [text "y"] [text "-x", text "-e", text "-x", text "y"] := by
  have h : ∀ l : List (List Nat), (∀ f, (text "y" :: l).head? = some f → f ≠ [45, 105] ∧ f ≠ [45, 117] ∧ f ≠ [45, 120]) := by
    intro l f hf
    cases hf
    decide
  exact ⟨.option (o := .utf8) (by decide) (.option (o := .i) (by decide) (.pattern (by decide) (h _))), .option (o := .andNot) (by decide) (.e (h _))⟩

/-- `pigrep 'ab|[c-e]*$' y` and a `y` that can be read. -/
theorem C71_pigrep_case (lines : List Nat → List (List Nat)) (hl : ∀ s, Lines s (lines s)) :
    (pigrep sse2 strings 0 (fun _ => some (text "ab\nxyz")) [samplePattern, text "y"] [] = .ok ([], false) ∧ GivesUp [] samplePattern sampleTree) ∨
    pigrep sse2 strings 0 (fun _ => some (text "ab\nxyz")) [samplePattern, text "y"] [] =
      .ok (printed (Occurs (sampleTree.den .ascii)) [] (lines (text "ab\nxyz")), true) := by
  have h := C71_pigrep (opts := []) (raw := samplePattern) (s := samplePattern) (t := sampleTree) (base := 0) (isa := sse2) (at_ := strings) (files := [text "y"])
    (args := [samplePattern, text "y"]) (stdin := []) (file := fun _ => some (text "ab\nxyz")) (lines := lines)
    (.pattern (by decide) (by intro f hf; cases hf; decide)) (by decide) (by decide) (ts := sampleTree.spell) sample_pattern rfl sample_ok (by decide) (by decide) (.inl rfl)
    strings_inMemory hl (by intro f s hs; cases hs; decide) (by simp) (by decide)
  rcases h with h | ⟨h, -⟩ | ⟨good, more, h1, -, h2, h3, h4⟩
  · exact .inl h
  · cases h
  · right
    have hm : more = [] := by
      cases more with
      | nil => rfl
      | cons f fs =>
        have := h3 f (by simp)
        unfold readFrom at this
        split at this <;> cases this
    subst hm
    rw [List.append_nil] at h1
    subst h1
    rw [h4]
    simp only [printedFiles, List.flatMap_cons, List.flatMap_nil, List.append_nil]
    rfl

/-- `http://www.evil.com/x` is in the domain `evil.com`, `notevil.com` is not, nor is `evil.com.uk`. -/
theorem C71_listed_case : Listed [text "evil.com"] (text "http://www.evil.com/x") ∧ ¬ Listed [text "evil.com"] (text "notevil.com") ∧
    ¬ Listed [text "evil.com"] (text "evil.com.uk") := by
  have key : ∀ url : List Nat, 47 ∉ url → Listed [text "evil.com"] url → ∃ subs, url = subs ++ text "evil.com" ∧ Subdomains subs := by
    rintro url hn ⟨sc, sub, d, p, rfl, h1, h2, h3, h4⟩
    rw [List.mem_singleton.1 h3]
    cases h1 with
    | some => simp at hn
    | none =>
      cases h4 with
      | some => simp at hn
      | none => exact ⟨sub, by simp, h2⟩
  refine ⟨?_, ?_, ?_⟩
  · refine ⟨text "http://", text "www.", text "evil.com", text "/x", by decide, ?_, ?_, by simp, .some _⟩
    · exact .some (l := text "http") (by decide) (by decide)
    · exact .label (l := text "www") (by decide) (by unfold LabelChar; decide) .none
  · intro h
    obtain ⟨subs, h1, h2⟩ := key _ (by decide) h
    have h1 : text "not" ++ text "evil.com" = subs ++ text "evil.com" := h1
    have h1 := List.append_cancel_right h1
    subst h1
    have : 46 ∈ text "not" := by
      generalize ht : text "not" = x at h2
      cases h2 with
      | none => cases ht
      | label => simp
    revert this
    decide
  · intro h
    obtain ⟨subs, h1, h2⟩ := key _ (by decide) h
    have := congrArg (fun l => l.getLast?) h1
    rw [List.getLast?_append, show (text "evil.com").getLast? = some 109 by decide, show (text "evil.com.uk").getLast? = some 107 by decide] at this
    simp at this

/-- A dictionary of two domains. -/
example : Words (text "evil.com\nbad.org\n") [text "evil.com", text "bad.org"] ∧ ∀ c ∈ text "evil.com\nbad.org\n", c < 256 := by
  refine ⟨?_, by decide⟩
  refine .word (b := []) (w := text "evil.com") (c := 10) (s := text "bad.org\n") (by simp) (by decide) (by unfold IsBlank; decide) (by unfold IsBlank; decide) ?_
  refine .word (b := [10]) (w := text "bad.org") (c := 10) (s := []) (by unfold IsBlank; decide) (by decide) (by unfold IsBlank; decide) (by unfold IsBlank; decide) ?_
  exact .blank (by unfold IsBlank; decide)

end Pire.Props
