import Verif.Props.Pattern

/-!
# C40-C45: cases and defects

Concrete patterns that meet the hypotheses of the theorems of Props/Pattern, and texts the library reads in unexpected
ways.
-/

namespace Pire.Props

open Pire.Spec Pire.Lex Pire.Parse Pire.Enc Pire.Unidata

def text (s : String) : List Nat := s.toList.map Char.toNat

/-! ### Defects -/

/-- An escaped `ÿ` is dropped. -/
theorem C40_escaped_y_is_dropped : tokens defaultFeatures 10 (text "a\\ÿb") = tokens defaultFeatures 10 (text "ab") := by decide +kernel

/-- Two U+F0FF end the pattern, the rest is ignored. -/
theorem C40_private_use_truncates : tokens defaultFeatures 10 ([97, 0xF0FF, 0xF0FF] ++ text "b(") = tokens defaultFeatures 10 (text "a") := by decide +kernel

/-- An escaped character from U+0100 on turns into another one: `\А` matches U+F410. -/
theorem C40_escaped_letter_is_another : tokens defaultFeatures 10 [92, 0x410] = .ok [.letters {0xF410} false] := by decide +kernel

/-- `\x{100000041}` is `A`. -/
theorem C40_code_is_truncated : tokens defaultFeatures 20 (text "\\x{100000041}") = .ok [.letters {65} false] := by decide +kernel

/-- `\x{F064}` is a digit. -/
theorem C40_code_is_class : tokens defaultFeatures 20 (text "\\x{F064}") = .ok [.letters (Finset.Icc 48 57) false] := by decide +kernel

/-- `[z-a]` is the empty set, not an error. -/
theorem C42_reversed_range : tokens defaultFeatures 10 (text "[z-a]") = .ok [.letters ∅ false] := by decide +kernel

/-- `[\Dx]` does not match `x`. -/
theorem C42_negated_class_in_bracket : tokens defaultFeatures 10 (text "[\\Dx]") = .ok [.letters (Finset.Icc 48 57 ∪ {120}) true] := by decide +kernel

/-- `[a-]` is rejected. -/
theorem C42_trailing_dash : tokens defaultFeatures 10 (text "[a-]") = .throws := by decide +kernel

/-- A range across U+F000 is rejected. -/
theorem C42_range_across_private_use : tokens defaultFeatures 30 (text "[\\x{EFFF}-\\x{F001}]") = .throws := by decide +kernel

/-- NUL does not begin a range: `[NUL-b]` is NUL, `-` and `b`. -/
theorem C42_range_from_nul : tokens defaultFeatures 10 [91, 0, 45, 98, 93] = .ok [.letters {0, 45, 98} false] := by decide +kernel

/-- `Lexer("[a-\xFF]")`: the byte is sign extended, and the loop over the range never ends. -/
theorem C42_range_never_ends : tokens defaultFeatures 10 (assignChars [91, 97, 45, 0xFF, 93]) = .bad := by decide +kernel

/-- A count may be written with any decimal digits of Unicode but only ASCII digits have their value: `a{٣}` repeats 1587 times. -/
theorem C41_foreign_digits : tokens defaultFeatures 10 ([97, 123, 0x663, 125]) = .ok [.letters {97} false, .count 1587 (some 1587)] := by decide +kernel

/-- `a()` matches nothing, it should match `a`. -/
theorem C43_empty_group_defect : ∃ f, parsePattern defaultFeatures .latin1 (text "a()") = .ok f ∧ f.Lang = 0 := by
  have h1 : tokens defaultFeatures ((text "a()").length + 1) (text "a()") = .ok [.letters {97} false, .opn, .cls] := by decide +kernel
  have h2 : parse [.letters {97} false, .opn, .cls] =
      some (.one (.one (.one (.snoc (.snoc .nil (.one (.letters {97} false))) (.one (.group (.one (.one (.one .nil))))))))) := rfl
  have h3 := evalCat_sat .latin1 (.snoc .nil (.one (.letters {97} false))) ⟨trivial, (by intro c hc; rw [Finset.mem_singleton.1 hc]; omega), rfl⟩
  rw [parsePattern_tree h1 h2]
  change ∃ f, evalCat .latin1 _ = _ ∧ _
  rw [evalCat]
  cases h4 : evalCat .latin1 (.snoc .nil (.one (.letters {97} false))) with
  | ok a =>
    rw [h4] at h3
    exact ⟨a.concat Fsm.init, rfl, C04_concat_with_empty_word_is_wrong h3.1.good.wf h3.1.good.coh⟩
  | throws => rw [h4] at h3; cases h3
  | bad => rw [h4] at h3; exact h3.elim

/-- `a{3,2})`: the parser never comes to the superfluous parenthesis, since the action for the count does not end. -/
theorem C43_syntax_error_unnoticed : parsePattern defaultFeatures .latin1 (text "a{3,2})") = .bad := by
  have h1 : tokens defaultFeatures ((text "a{3,2})").length + 1) (text "a{3,2})") = .ok [.letters {97} false, .count 3 (some 2), .cls] := by decide +kernel
  have h2 := tokens_stops defaultFeatures ((text "a{3,2})").length + 1) (text "a{3,2})")
  rw [h1] at h2
  unfold parsePattern
  rw [pull_eq, h2.1]
  have h3 := convertToFsm_sat .latin1 (v := .range {97} false) (L := (codec .latin1).charsOf {97}) (emp := false)
    ⟨(by intro c hc; rw [Finset.mem_singleton.1 hc]; omega), rfl⟩
  have h5 : vrun .latin1 (VFrame.new, []) [.letters {97} false, .count 3 (some 2), .cls] = .bad := by
    cases h4 : convertToFsm .latin1 (.range {97} false) with
    | ok f =>
      simp only [vrun, vstep, VFrame.new, VFrame.closeTerm, ok_bind, orThrow, h4, C41_reversed_bounds f (show 2 < 3 by omega)]
      rfl
    | throws => rw [h4] at h3; cases h3
    | bad => rw [h4] at h3; exact h3.elim
  rw [h5]
  rfl

/-- `a{3,2}` never ends. -/
theorem C41_reversed_bounds_pattern : parsePattern defaultFeatures .latin1 (text "a{3,2}") = .bad := by
  have h1 : tokens defaultFeatures ((text "a{3,2}").length + 1) (text "a{3,2}") = .ok [.letters {97} false, .count 3 (some 2)] := by decide +kernel
  have h2 : parse [.letters {97} false, .count 3 (some 2)] = some (.one (.one (.one (.snoc .nil (.rep (.letters {97} false) 3 (some 2)))))) := rfl
  rw [parsePattern_tree h1 h2]
  change evalCat .latin1 _ = _
  rw [evalCat, evalCat, ok_bind, evalIter, evalTerm, ok_bind]
  have h3 := convertToFsm_sat .latin1 (v := .range {97} false) (L := (codec .latin1).charsOf {97}) (emp := false)
    ⟨(by intro c hc; rw [Finset.mem_singleton.1 hc]; omega), rfl⟩
  cases h4 : convertToFsm .latin1 (.range {97} false) with
  | ok f => rw [ok_bind, C41_reversed_bounds f (by omega)]; rfl
  | throws => rw [h4] at h3; cases h3
  | bad => rfl

/-! ### Cases -/

/-- `ab|[c-e]*$` -/
def samplePattern : List Nat := text "ab|[c-e]*$"

theorem default_letters (c : Nat) : Flavor.default.widen (Flavor.default.fold c) = {c} := by simp [Flavor.default, Flavor.widen]

theorem sample_pattern : Pattern Flavor.default samplePattern
    [.letters {97} false, .letters {98} false, .bar, .letters (Finset.Icc 99 101) false, .count 0 none, .eol] := by
  have hb : ∀ c, 97 ≤ c → c ≤ 122 → Written Flavor.default [c] (.letters {c} false) := by
    intro c h1 h2
    have := Written.plain (fl := Flavor.default) (c := c) (by simp [Flavor.special, Flavor.default]; omega) (by unfold Usable Reserved; omega)
    rwa [default_letters] at this
  have hbd : ∀ c, 97 ≤ c → c ≤ 122 → Bound [c] c := by
    intro c h1 h2
    exact .plain (by simp; omega) (by omega) (by unfold Usable Reserved; omega)
  have hbr : Written Flavor.default (91 :: (([99] ++ 45 :: ([101] ++ [])) ++ [93])) (.letters (Finset.Icc 99 101) false) := by
    have := Written.bracket (fl := Flavor.default) (.range (hbd 99 (by omega) (by omega)) (hbd 101 (by omega) (by omega))
      (fun c h1 h2 => by unfold Usable Reserved; omega) .nil) (by simp)
    have e : Flavor.default.widen ((Finset.Icc 99 101).biUnion Flavor.default.fold ∪ ∅) = Finset.Icc 99 101 := by
      simp [Flavor.default, Flavor.widen]
    rwa [e] at this
  exact .cons (hb 97 (by omega) (by omega)) (.cons (hb 98 (by omega) (by omega)) (.cons .bar (.cons hbr (.cons .star (.cons .eol .nil)))))

def sampleTree : Alt :=
  .or (.one (.one (.one (.snoc (.snoc .nil (.one (.letters {97} false))) (.one (.letters {98} false))))))
    (.one (.one (.snoc (.snoc .nil (.rep (.letters (Finset.Icc 99 101) false) 0 none)) (.one .eol))))

/-- The hypotheses of `C43_pattern_language` are met. -/
example : ∃ f, parsePattern noOptions.features .utf8 samplePattern = .ok f ∧ f.Good ∧ f.Lang = sampleTree.den Codec.utf8 := by
  refine C43_plain_pattern_language (by rw [noOptions_flavor]; exact sample_pattern) (t := sampleTree) rfl ?_ rfl .utf8
  refine ⟨⟨⟨trivial, ?_, rfl⟩, ?_, rfl⟩, ⟨trivial, ⟨?_, ?_, ?_⟩, rfl⟩, trivial, rfl⟩
  · intro c hc; rw [Finset.mem_singleton.1 hc]; omega
  · intro c hc; rw [Finset.mem_singleton.1 hc]; omega
  · intro c hc; have := (Finset.mem_Icc.1 hc).2; omega
  · intro h hh; cases hh
  · intro hh; cases hh

/-- A text with special characters and with a letter of another alphabet. -/
example : ∃ f, parsePattern caseOption.features .utf8 (quote caseOption.flavor (text "c++ Ж?")) = .ok f ∧ f.Good ∧
    ∀ w, w ∈ f.Lang ↔ ∃ s', List.Forall₂ (fun c' c => c' ∈ caseOption.variants c) s' (text "c++ Ж?") ∧ (∀ c ∈ s', Spec.utf8 c ≠ []) ∧
      w = s'.flatMap Spec.utf8 :=
  C44_text (o := caseOption) (by decide) (fun _ => by decide) .utf8

/-- Rejected: `ab|[c-e]*$` followed by an unclosed bracket, by an unknown escape, by a wrong count, by a backslash. -/
example : parsePattern noOptions.features .utf8 (samplePattern ++ text "[x*") = .throws ∧
    parsePattern noOptions.features .utf8 (samplePattern ++ text "\\q") = .throws ∧
    parsePattern noOptions.features .utf8 (samplePattern ++ text "{x}") = .throws := by
  have h := sample_pattern
  rw [← noOptions_flavor] at h
  have ho : OrderedCounts [.letters {97} false, .letters {98} false, .bar, .letters (Finset.Icc 99 101) false, .count 0 none, .eol] := by
    intro lo hi hm; simp at hm
  refine ⟨C40_rejects_open_bracket h ho ⟨by decide, ?_⟩ (by decide) _, C40_rejects_escape h ho (c := 113) (by omega) (by omega) (by omega) rfl rfl ?_ [] _,
    C40_rejects_count h ho (c := 120) (by omega) (by omega) (by omega) _⟩
  · intro u ds v h hd
    have := congrArg List.length h
    simp [text] at this
    omega
  · rw [noOptions_flavor]; decide

/-- A backslash at the end. -/
example : parsePattern noOptions.features .utf8 (text "a\\\\\\") = .throws := by
  refine (C40_rejects_trailing_backslash ⟨by decide, ?_⟩ ?_ _).2 ?_
  · intro u ds v h hd
    have := congrArg List.length h
    simp [text] at this
    omega
  · intro h
    have e : text "a\\\\\\" = [97, 92, 92, 92] := rfl
    rw [e] at h
    cases h with
    | plain _ h =>
      cases h with
      | plain h _ => exact h rfl
      | quoted h =>
        cases h with
        | plain h _ => exact h rfl
  · rw [show tokensRead noOptions.features ((text "a\\\\\\").length + 1) (text "a\\\\\\") = [.letters {97} false, .letters {92} false] by decide +kernel]
    intro lo hi hm
    simp at hm

/-- Unbalanced parentheses. -/
example : parsePattern noOptions.features .utf8 (text "(") = .throws :=
  C43_unbalanced (o := noOptions) (ts := [.opn]) (.cons .opn .nil) (fun lo hi h => by simp at h) (by decide) _

/-- Repetition. -/
example : ∃ g, repeatAction (Fsm.init.appendChar 97) 2 (some 5) = .ok g ∧ g.Good ∧
    ∀ w, w ∈ g.Lang ↔ ∃ n, 2 ≤ n ∧ (∀ k, some 5 = some k → n ≤ k) ∧ w ∈ (Fsm.init.appendChar 97).Lang ^ n := by
  have := appendChar_spec Appendable.init (c := 97) (by decide)
  exact C41_counts this.1 this.2.2 (fun n h => by cases h; omega)

end Pire.Props
