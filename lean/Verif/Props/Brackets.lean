import Verif.Proofs.Brackets
import Verif.Props.Pattern

/-!
# C42: brackets with classes named by capital letters
-/

namespace Pire.Props

open Pire.Spec Pire.Lex Pire.Parse Pire.Enc Pire.Unidata

variable {o : Options} {t : List Nat} {cs : Finset Nat} {lo up : Bool}

theorem Options.optional (o : Options) : ∀ f ∈ o.list, f ∈ Lex.optional := fun f hf => by
  unfold Lex.optional
  rcases o.opt f hf with rfl | rfl | rfl <;> decide

theorem mixed_token (h : Mixed o.flavor true t cs lo up) (hh : t.head? ≠ some 94) (r : List Nat) :
    lex o.features (91 :: (t ++ 93 :: r)) = if up = true ∧ lo = true then .throws else .ok (some (.letters (o.flavor.widen cs) up, r)) := by
  obtain ⟨raw, e1, e2⟩ := lexRange_mixed h hh r
  have := lex_bracket o.nodup o.optional e2 e1
  simp only [Bool.false_eq_true, or_false, Bool.or_false] at this
  exact this

theorem not_mixed_token (h : Mixed o.flavor true t cs lo up) (r : List Nat) :
    lex o.features (91 :: 94 :: (t ++ 93 :: r)) = if up = true then .throws else .ok (some (.letters (o.flavor.widen cs) true, r)) := by
  obtain ⟨raw, e1, e2⟩ := lexRange_not_mixed h r
  have := lex_bracket o.nodup o.optional e2 e1
  simp only [or_true, and_true, Bool.or_true] at this
  exact this

/-- `[^...\D...]` is rejected, after anything: a class named by a capital letter may not stand in a negated bracket. -/
theorem C42_rejects_capital_in_negated {s : List Nat} {ts : List Tok} (hp : Pattern o.flavor s ts) (ho : OrderedCounts ts) (h : Mixed o.flavor true t cs lo true) (r : List Nat)
    (e : Encoding) : parsePattern o.features e (s ++ 91 :: 94 :: (t ++ 93 :: r)) = .throws :=
  error_rejected hp ho (.plain (by omega) (by decide)) (by rw [not_mixed_token h, if_pos rfl]) e

/-- `[...\w...\D...]` is rejected, after anything: classes named by small and by capital letters may not stand in one bracket. -/
theorem C42_rejects_mixed {s : List Nat} {ts : List Tok} (hp : Pattern o.flavor s ts) (ho : OrderedCounts ts) (h : Mixed o.flavor true t cs true true) (hh : t.head? ≠ some 94)
    (r : List Nat) (e : Encoding) : parsePattern o.features e (s ++ 91 :: (t ++ 93 :: r)) = .throws :=
  error_rejected hp ho (.plain (by omega) (by decide)) (by rw [mixed_token h hh, if_pos ⟨rfl, rfl⟩]) e

/-- **The defect in general.** A bracket with a class named by a capital letter (and none named by a small one) matches a character that is *none* of those
mentioned: `[\Dx]` does not match `x`. -/
theorem C42_capital_in_bracket (h : Mixed o.flavor true t cs false true) (hh : t.head? ≠ some 94) (hlt : ∀ c ∈ o.flavor.widen cs, c < 0x200000) (e : Encoding) :
    (∃ f, parsePattern o.features e (91 :: (t ++ [93])) = .ok f ∧ f.Good ∧
      ∀ w, w ∈ f.Lang ↔ w ∈ (codec e).one ∧ ¬ ∃ c ∈ o.flavor.widen cs, w = (codec e).enc c ∧ w ≠ []) ∨
    parsePattern o.features e (91 :: (t ++ [93])) = .throws := by
  have hl := mixed_token h hh []
  rw [if_neg (by simp)] at hl
  have ht : tokens o.features ((91 :: (t ++ [93])).length + 1) (91 :: (t ++ [93])) = .ok [.letters (o.flavor.widen cs) true] := by
    rw [List.length_cons, tokens, hl]
    rfl
  have hg := evalAlt_sat e (setTree (o.flavor.widen cs) true) ⟨trivial, hlt, rfl⟩
  have hp : parse [.letters (o.flavor.widen cs) true] = some (setTree (o.flavor.widen cs) true) := rfl
  rw [parsePattern_tree ht hp]
  cases he : evalAlt e (setTree (o.flavor.widen cs) true) with
  | throws => exact .inr rfl
  | bad => rw [he] at hg; exact hg.elim
  | ok f =>
    rw [he] at hg
    refine .inl ⟨f, rfl, hg.1, fun w => ?_⟩
    rw [hg.2.1, setTree_den]
    rfl

/-- `\Dx` is such a text, and `\d\W` one with both kinds of classes. -/
theorem C42_mixed_witness : Mixed Flavor.default true [92, 68, 120] ((Finset.Icc 48 57) ∪ {120}) false true ∧
    ∃ cs, Mixed Flavor.default true [92, 100, 92, 87] cs true true := by
  refine ⟨?_, _, .cls (n := 100) rfl (.cap (n := 119) rfl .nil)⟩
  have := Mixed.cap (fl := Flavor.default) (b := true) (n := 100) rfl (.single (.plain (c := 120) (by decide) (by decide) ⟨(by unfold Reserved; omega), by omega⟩) .nil)
  simpa [Flavor.default] using this

end Pire.Props
