import Verif.Props.Inline
import Verif.Props.CaptureGroupCases

/-!
# C69: regexps that `Glue` gives up on
-/

namespace Pire.Props

open Pire Pire.Spec Pire.Lex Pire.Parse Pire.Enc Pire.Scn Pire.Multi Pire.Fsm Pire.Io Pire.Inline

/-- `.*a.{16}` -/
def lateTree : Alt := wrap (.snoc (.snoc (.snoc .nil (.rep .dot 0 none)) (ch 97)) (.rep .dot 16 (some 16)))

theorem late_means : Means ⟨text ".*a.{16}", []⟩ noOptions lateTree := by
  refine ⟨by simp, rfl, show ∀ c ∈ text ".*a.{16}", c < 128 by decide, ?_, ?_⟩
  · rw [noOptions_flavor]
    have hd : Decimal (([] ++ [48 + 1]) ++ [48 + 6]) (10 * (10 * 0 + 1) + 6) := .snoc (.snoc .nil (by omega)) (by omega)
    exact .cons .dot (.cons .star (.cons (written_letter (c := 97) (by omega) (by omega)) (.cons .dot (.cons (.exactly hd (by simp) (by norm_num)) .nil))))
  · exact ⟨⟨⟨trivial, ⟨trivial, nofun, nofun⟩, rfl⟩, ch_ok (by omega), rfl⟩, ⟨trivial, by intro h hh; cases hh; rfl, nofun⟩, rfl⟩

theorem anyByte_pow : ∀ (n : Nat) (w : List Nat), w ∈ anyByte ^ n ↔ w.length = n ∧ ∀ c ∈ w, c < 256
  | 0, w => by
    rw [pow_zero, Language.mem_one]
    constructor
    · rintro rfl; simp
    · rintro ⟨h, -⟩; exact List.length_eq_zero_iff.1 h
  | n + 1, w => by
    rw [pow_succ', Language.mem_mul]
    constructor
    · rintro ⟨a, ⟨b, hb, rfl⟩, v, hv, rfl⟩
      obtain ⟨h1, h2⟩ := (anyByte_pow n v).1 hv
      refine ⟨by simp [h1], ?_⟩
      intro c hc
      rcases List.mem_cons.1 hc with rfl | hc
      · exact hb
      · exact h2 c hc
    · rintro ⟨h1, h2⟩
      cases w with
      | nil => cases h1
      | cons c w =>
        exact ⟨[c], ⟨c, h2 c (by simp), rfl⟩, w, (anyByte_pow n w).2 ⟨by simpa using h1, fun d hd => h2 d (by simp [hd])⟩, rfl⟩

theorem late_den {w : List Nat} (hw : ∀ c ∈ w, c < 256) : w ∈ lateTree.den Codec.ascii ↔ w.reverse[16]? = some 97 := by
  show w ∈ ((1 * repeated anyByte 0 none) * (ch 97).den Codec.ascii) * repeated anyByte 16 (some 16) ↔ _
  rw [ch_den (by omega), one_mul]
  constructor
  · rintro ⟨x, ⟨u, -, a, rfl, rfl⟩, v, ⟨n, h1, h2, hv⟩, rfl⟩
    have hn : n = 16 := le_antisymm (h2 16 rfl) h1
    subst hn
    have hl := ((anyByte_pow 16 v).1 hv).1
    show (u ++ [97] ++ v).reverse[16]? = some 97
    rw [List.reverse_append, List.getElem?_append_right (by simp [hl])]
    simp [hl]
  · intro h
    have hl : 16 < w.reverse.length := (List.getElem?_eq_some_iff.1 h).1
    rw [List.length_reverse] at hl
    have e : w[w.length - 17]? = some 97 := by
      rw [List.getElem?_reverse hl] at h
      rwa [show w.length - 1 - 16 = w.length - 17 by omega] at h
    obtain ⟨h1, h2⟩ := List.getElem?_eq_some_iff.1 e
    refine ⟨w.take (w.length - 17) ++ [97], ⟨w.take (w.length - 17), ⟨_, Nat.zero_le _, nofun, (anyByte_pow _ _).2 ⟨rfl, fun c hc => hw c (List.mem_of_mem_take hc)⟩⟩, [97], rfl, rfl⟩,
      w.drop (w.length - 17 + 1), ⟨16, le_rfl, by intro x hx; cases hx; rfl, (anyByte_pow _ _).2 ⟨by simp; omega, fun c hc => hw c (List.mem_of_mem_drop hc)⟩⟩, ?_⟩
    show (w.take (w.length - 17) ++ [97]) ++ w.drop (w.length - 17 + 1) = w
    rw [List.append_assoc, List.singleton_append, ← h2, List.getElem_cons_drop, List.take_append_drop]

/-- `PIRE_REGEXP(".*a.{16}", "", "ab|[c-e]*$", "s", "ab|[c-e]*$", "ur")`: the first two are too much for `Glue`. -/
theorem C69_case_dropped {null : Multi} {addr : Nat → Nat} (ha : Allocates null addr) :
    scanners null addr (⟨text ".*a.{16}", []⟩ :: sampleItems) = .throws ∨ ∃ s, scanners null addr (⟨text ".*a.{16}", []⟩ :: sampleItems) = .ok s ∧
      Recognizes scannerPolicy s [itemLanguage ⟨text "ab|[c-e]*$", text "ur"⟩ sampleTree] := by
  refine C69_glue_failure_unnoticed ha late_means (sample_means _ (by decide) (by decide)) (sample_means _ (by decide) (by decide)) (late_many _ (List.mem_cons_self ..) ?_)
  intro w hw
  have hb : ∀ c ∈ w, c < 256 := fun c hc => by rcases hw c hc with rfl | rfl <;> omega
  show (if false = true then w.reverse else w) ∈ lateTree.den Codec.ascii ↔ _
  exact late_den hb

end Pire.Props
