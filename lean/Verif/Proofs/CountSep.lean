import Verif.Proofs.CountMain
import Verif.Proofs.Pattern
import Verif.Proofs.Tags

/-!
# The constructor of `CountingScanner`: `(sep & ~res) + re`
-/

namespace Pire

open Spec

namespace Count

open Fsm Counting

theorem initial_not_final {f : Fsm} (h : [] ∉ f.Lang) : f.initial ∉ f.finals := fun hf => h ⟨_, hf, .refl _⟩

theorem mem_surround {L : Language Nat} {w : List Nat} (hw : IsWord w) : w ∈ allWords * L * allWords ↔ ∃ x, x <:+: w ∧ x ∈ L := by
  simp only [Language.mem_mul]
  constructor
  · rintro ⟨_, ⟨a, -, b, hb, rfl⟩, c, -, rfl⟩
    exact ⟨b, ⟨a, c, by simp⟩, hb⟩
  · rintro ⟨x, ⟨a, c, rfl⟩, hx⟩
    refine ⟨a ++ x, ⟨a, ?_, x, hx, rfl⟩, c, ?_, by simp⟩
    · intro y hy; exact hw y (by simp [hy])
    · intro y hy; exact hw y (by simp [hy])

theorem sepRe_spec {re sep f : Fsm} (h : re.Good) (h2 : sep.Good) (he : [] ∉ re.Lang) (hf : sepRe re sep = some f) :
    f.Good ∧ f.determined = false ∧ ∀ w, w ∈ f.Lang ↔ Item re.Lang sep.Lang w := by
  unfold sepRe at hf
  simp only [Option.bind_eq_bind, Option.bind_eq_some_iff, Option.pure_def, Option.some.injEq] at hf
  obtain ⟨x, hx, y, hy, rfl⟩ := hf
  obtain ⟨x1, x2, -⟩ := complement_spec h.surround hx
  obtain ⟨y1, y2, -⟩ := Parse.inter_spec h2 x1 hy
  refine ⟨y1.concat h, (concat_flags _ _).2, fun w => ?_⟩
  rw [lang_concat y1.wf y1.coh h.wf h.coh (initial_not_final he), y2, x2, lang_surround h.wf]
  unfold Item
  constructor
  · intro hw
    obtain ⟨u, ⟨hu1, hu2, hu3⟩, v, hv, rfl⟩ := Language.mem_mul.1 hw
    refine ⟨u, v, rfl, hu1, fun z hz hzr => hu3 ?_, hv⟩
    exact (mem_surround hu2).2 ⟨z, hz, hzr⟩
  · rintro ⟨u, v, rfl, hu, hn, hv⟩
    have huw : IsWord u := by
      obtain ⟨p, _, hr⟩ := hu
      exact h2.wf.run_word hr
    refine Language.mem_mul.2 ⟨u, ⟨hu, huw, fun hm => ?_⟩, v, hv, rfl⟩
    obtain ⟨z, hz, hzr⟩ := (mem_surround huw).1 hm
    exact hn z hz hzr

/-- No tag has the bit `Matched` (2). -/
def Unmarked (f : Fsm) : Prop := f.TagsIn fun t => t.testBit 1 = false

theorem unmarked_or (a b : Nat) (ha : a.testBit 1 = false) (hb : b.testBit 1 = false) : (a ||| b).testBit 1 = false := by
  rw [Nat.testBit_or, ha, hb]; rfl

theorem sepRe_unmarked {re sep f : Fsm} (h : Unmarked re) (h2 : Unmarked sep) (hf : sepRe re sep = some f) : Unmarked f := by
  unfold sepRe at hf
  simp only [Option.bind_eq_bind, Option.bind_eq_some_iff, Option.pure_def, Option.some.injEq] at hf
  obtain ⟨x, hx, y, hy, rfl⟩ := hf
  have h1 : Unmarked re.surround := TagsIn.of_eq h (surround_tags re)
  have h3 := TagsIn.complement unmarked_or h1 hx
  exact (TagsIn.inter unmarked_or h2 h3 hy).concat h

theorem determine_tags_size {f : Fsm} (hnd : f.determined = false) (hok : f.determine.2 = true) {q : Nat} (hq : f.determine.1.size ≤ q) :
    f.determine.1.tags q = none := by
  unfold determine at *
  rw [hnd] at *
  simp only [Bool.false_eq_true, if_false] at *
  revert hok hq
  cases f.removeEpsilons.determineTask.run (if 0 ≠ 0 then 0 else 200000) with
  | none => intro h; cases h
  | some x =>
    obtain ⟨states, conns⟩ := x
    intro _ hq
    simp only at hq ⊢
    have hs : states.length ≤ q := by
      have := (build_fields f.removeEpsilons states conns).1
      change (f.removeEpsilons.buildDetermined states conns).size ≤ q at hq
      omega
    change (f.removeEpsilons.buildDetermined states conns).tags q = none
    simp only [buildDetermined, connectAll_tags]
    rw [if_neg (by omega)]

theorem mainFsm_spec {re sep f : Fsm} (h : re.Good) (h2 : sep.Good) (he : [] ∉ re.Lang) (ht : Unmarked re) (ht2 : Unmarked sep)
    (hf : sepRe re sep = some f) (hok : f.determine.2 = true) (hok2 : ((addCopy f.determine.1).union anyChar).determine.2 = true) :
    MainSpec re.Lang sep.Lang (mainFsm f) := by
  obtain ⟨f1, f2, f3⟩ := sepRe_spec h h2 he hf
  obtain ⟨d1, d2, -, -, d5, -, -⟩ := (determine_spec f1.wf f2 0).1 hok
  have hn := nfa_spec d1 d5 (fun q hq => determine_tags_size f2 hok hq) (TagsIn.determine unmarked_or (sepRe_unmarked ht ht2 hf) 0)
  exact main_spec hn (by rw [d2]; exact f3) hok2

end Count
end Pire
