import Verif.Proofs.AdvBound
import Verif.Proofs.AdvDead
import Verif.Props.CountCtor

/-!
# What the advanced counting scanners count: property C56

`AdvancedCountingScanner(re, sep, &simple)` and `NoGlueLimitCountingScanner(re, sep, &simple)` (pire/extra/count.cpp:34-737, 836-873). What they are meant to
count is in `Spec/Series.lean`, in terms of the languages of `re` and `sep` alone.
-/

namespace Pire
namespace Count
namespace Adv

open Spec Loaded Counting

/-- A legitimate call of the constructors: state tags of `re` are not used, the automata are not too big for `Canonize`, and the table fits. -/
structure Call (base : Nat) (re sep : Fsm) : Prop where
  reGood : re.Good
  sepGood : sep.Good
  untagged : Untagged re
  fits : ∃ t L, table re sep = some (t, L) ∧ L.size ≤ 256 ∧ t.fsm.size * (L.size * 8) ≤ 2 ^ 31
  aligned : base % 8 = 0
  low : base ≤ 2 ^ 63

/-- The machine the constructors make of `re` and `sep`, and what they store in `*simple`. -/
def Of (re sep : Fsm) (smp : Bool) (M : Machine) : Prop :=
  re.Good ∧ sep.Good ∧ Untagged re ∧ ∃ t L, table re sep = some (t, L) ∧ smp = t.simple ∧ M = t.machine L

/-- After the text `w` the counter for `re` and `sep` shows `k`. The scanner may have been assembled in any way (see `Built`), and there may be other
counters in it. -/
inductive Shows (re sep : Fsm) (smp : Bool) (w : List Nat) (k : Nat) : Prop
  | advanced {own : Bool} {s : Loaded} {Ms : List Machine} {i : Nat} {M : Machine} : Built MadeAdvanced own s Ms → Ms[i]? = some M → Of re sep smp M →
      ((scn takeAdvanced s).after (scn takeAdvanced s).initial w).result i = k → Shows re sep smp w k
  | noLimit {own : Bool} {s : NoLimit} {Ms : List Machine} {i : Nat} {M : Machine} {st : State} : BuiltNoLimit own s Ms → Ms[i]? = some M → Of re sep smp M →
      (scnNoLimit s).after (scnNoLimit s).initial w = some st → st.result i = k → Shows re sep smp w k

/-- A text: characters, `BeginMark` and `EndMark`; short enough for 32-bit counters. -/
def Text (w : List Nat) : Prop := (∀ c ∈ w, Plain c) ∧ 2 * w.length < 2 ^ 32

theorem Text.word {w : List Nat} (h : Text w) : IsWord w := fun c hc => plain_letter (h.1 c hc)

theorem Shows.maxRun {re sep : Fsm} {smp : Bool} {w : List Nat} {k : Nat} (h : Shows re sep smp w k) (hw : Text w) :
    ∃ M, Of re sep smp M ∧ MaxRun ((M.outs M.q0 w).flatMap advancedOps) k := by
  cases h with
  | advanced hb hM ho hk => exact ⟨_, ho, hk ▸ (Props.C47_advanced_counts hb).2 w hw.word hw.2 _ _ hM⟩
  | noLimit hb hM ho hs hk =>
    obtain ⟨st', h1, h2⟩ := (Props.C47_nolimit_counts hb).2 w hw.word hw.2
    rw [hs] at h1
    cases h1
    exact ⟨_, ho, hk ▸ h2 _ _ hM⟩

theorem Of.outs {re sep : Fsm} {smp : Bool} {M : Machine} (h : Of re sep smp M) :
    ∃ A B f, Shape A B f ∧ A.Lang = re.Lang ∧ B.Lang = sep.Lang ∧ ∀ w, IsWord w →
      M.outs M.q0 w = (if smp then simple f A.initial else full f A.initial).acts f (if smp then simple f A.initial else full f A.initial).initial w := by
  obtain ⟨h1, h2, h3, t, L, h4, rfl, rfl⟩ := h
  obtain ⟨A, B, f, S, e1, e2, rfl, rel, hf⟩ := table_spec h1 h2 h3 h4
  exact ⟨A, B, f, S, e1, e2, fun w hw => machine_outs S.wf.let_wf S.all rfl hf hf.init_lt hf.init hw⟩

/-! ### An example -/

/-- The automaton of one character, by `Append`. -/
def single (c : Nat) : Fsm := Fsm.init.appendChar c

theorem single_good {c : Nat} (hc : IsLetter c) : (single c).Good :=
  .of_raw (Fsm.WF.init.appendChar hc.1) (Fsm.init_raw.appendChar _) (.of_false (Fsm.appendChar_isAlt _ _)) rfl

theorem single_lang {c : Nat} (hc : IsLetter c) (w : List Nat) : w ∈ (single c).Lang ↔ w = [c] := by
  unfold single
  rw [Fsm.lang_appendChar Fsm.WF.init Fsm.init_raw hc.2, Fsm.lang_init, Language.mem_mul]
  constructor
  · rintro ⟨a, ha, b, hb, rfl⟩
    rw [Set.mem_singleton_iff.1 ha, Set.mem_singleton_iff.1 hb]
    rfl
  · rintro rfl
    exact ⟨[], Set.mem_singleton _, [c], Set.mem_singleton _, rfl⟩

theorem single_untagged (c : Nat) : Untagged (single c) := by
  have h : Untagged Fsm.init := Fsm.TagsIn.init
  refine h.of_eq ?_
  show ((Fsm.init.resize _).connectFinal _ c).tags = Fsm.init.tags
  unfold Fsm.connectFinal
  exact Fsm.connectAll_tags _ _

/-- The same with three states. -/
def singleDfa (d : Nat) : DFA Nat (Fin 3) where
  step q c := if q = 0 ∧ c = d then 1 else 2
  start := 0
  accept := {1}

theorem singleDfa_mem (d : Nat) (w : List Nat) : w ∈ (singleDfa d).accepts ↔ w = [d] := by
  have dead : ∀ (w : List Nat), (singleDfa d).evalFrom 2 w = 2 := by
    intro w
    induction w with
    | nil => rfl
    | cons c w ih => exact ih
  have one : ∀ c (w : List Nat), (singleDfa d).evalFrom 1 (c :: w) = 2 := fun c w => dead w
  show (singleDfa d).evalFrom 0 w ∈ ({1} : Set (Fin 3)) ↔ _
  rw [Set.mem_singleton_iff]
  cases w with
  | nil => simp [DFA.evalFrom]
  | cons c w =>
    by_cases hc : c = d
    · subst hc
      have e : (singleDfa c).evalFrom 0 (c :: w) = (singleDfa c).evalFrom 1 w := by
        show (singleDfa c).evalFrom ((singleDfa c).step 0 c) w = _
        congr 1
        simp [singleDfa]
      rw [e]
      cases w with
      | nil => simp [DFA.evalFrom]
      | cons x w => rw [one]; simp
    · have e : (singleDfa d).evalFrom 0 (c :: w) = (singleDfa d).evalFrom 2 w := by
        show (singleDfa d).evalFrom ((singleDfa d).step 0 c) w = _
        congr 1
        simp [singleDfa, hc]
      rw [e, dead]
      simp [hc]

theorem single_apart : Apart (single 97).Lang (single 98).Lang ∧ ∀ c < 9, ¬ Occurs (single 97).Lang c ∧ ¬ Occurs (single 98).Lang c := by
  have h : ∀ d, IsLetter d → ∀ c, Occurs (single d).Lang c ↔ c = d := by
    intro d hd c
    constructor
    · rintro ⟨w, hw, hc⟩
      rw [(single_lang hd w).1 hw] at hc
      exact List.mem_singleton.1 hc
    · rintro rfl
      exact ⟨[c], (single_lang hd _).2 rfl, by simp⟩
  have h97 := h 97 (by decide)
  have h98 := h 98 (by decide)
  refine ⟨⟨fun c h1 h2 => ?_, fun h => ?_, fun h => ?_⟩, fun c hc => ⟨fun h1 => ?_, fun h1 => ?_⟩⟩
  · have := (h97 c).1 h1; have := (h98 c).1 h2; omega
  · have := (single_lang (by decide) _).1 h; cases this
  · have := (single_lang (by decide) _).1 h; cases this
  · have := (h97 c).1 h1; omega
  · have := (h98 c).1 h1; omega

/-- `abab…aba` -/
def alternating (n : Nat) : List Nat := 97 :: (List.replicate n [98, 97]).flatten

theorem alternating_length (n : Nat) : (alternating n).length = 2 * n + 1 := by
  simp [alternating]; omega

theorem alternating_longest (n : Nat) : LongestSeries (single 97).Lang (single 98).Lang (alternating n) (n + 1) := by
  refine ⟨.inr ⟨_, List.infix_rfl, ?_⟩, fun j hj => ?_⟩
  · induction n with
    | zero => exact .one ((single_lang (by decide) _).2 rfl)
    | succ n ih =>
      have : alternating (n + 1) = alternating n ++ [98] ++ [97] := by
        unfold alternating
        rw [List.replicate_succ', List.flatten_append]
        simp
      rw [this]
      exact .more ih ((single_lang (by decide) _).2 rfl) ((single_lang (by decide) _).2 rfl)
  · rcases hj with rfl | ⟨u, hu, hs⟩
    · omega
    · have hlen : u.length + 1 = 2 * j := by
        clear hu
        induction hs with
        | one hw => rw [(single_lang (by decide) _).1 hw]; rfl
        | more _ h1 h2 ih =>
          rw [(single_lang (by decide) _).1 h1, (single_lang (by decide) _).1 h2]
          simp; omega
      have := hu.length_le
      rw [alternating_length] at this
      omega

end Adv
end Count

namespace Props

open Spec Loaded Counting Count

/-- **The constructors.** A legitimate call of either of them succeeds, both set `*simple` to the same value and make a scanner with one counter, the one for `re` and `sep`. -/
theorem C56_made {base : Nat} {re sep : Fsm} (h : Adv.Call base re sep) :
    ∃ s s' smp, Adv.ctor base re sep = some (s, smp) ∧ Adv.ctorNoLimit base re sep = some (s', smp) ∧ s.reCount = 1 ∧ s'.base.reCount = 1 ∧
      ∃ M, Adv.Of re sep smp M ∧ Built MadeAdvanced true s [M] ∧ BuiltNoLimit true s' [M] := by
  obtain ⟨t, L, h1, h2, h3⟩ := h.fits
  obtain ⟨A, B, f, S, -, -, rfl, rel, hf⟩ := Adv.table_spec h.reGood h.sepGood h.untagged h1
  have hfill := Adv.machine_fillable S.wf.let_wf S.all hf h2 h3 h.aligned h.low
  have b1 : Built MadeAdvanced true (fillTable remapAdvanced base t.fsm.size t.fsm.initial f.letters (fun q c => t.fsm.firstDst q c) t.actions) [t.machine f.letters] :=
    .made ⟨f.letters, base, Adv.machine_fill S.wf.let_wf t remapAdvanced base, hfill⟩
  have b2 : BuiltNoLimit true ⟨fillTable id base t.fsm.size t.fsm.initial f.letters (fun q c => t.fsm.firstDst q c) t.actions, none, false⟩ [t.machine f.letters] := by
    rw [Adv.machine_fill S.wf.let_wf t id base]
    exact .made hfill
  refine ⟨_, _, t.simple, by unfold Adv.ctor; rw [h1]; rfl, by unfold Adv.ctorNoLimit; rw [h1]; rfl, (C47_advanced_counts b1).1, (C47_nolimit_counts b2).1, _,
    ⟨h.reGood, h.sepGood, h.untagged, t, f.letters, h1, rfl, rfl⟩, b1, b2⟩

/-- **Never too many.** There is a series of as many matches in the text as the counter shows, with nothing but matches of `sep` between them. -/
theorem C56_never_too_many {re sep : Fsm} {smp : Bool} {w : List Nat} {k : Nat} (h : Adv.Shows re sep smp w k) (hw : Adv.Text w) : HasSeries re.Lang sep.Lang w k := by
  obtain ⟨M, ho, hk⟩ := h.maxRun hw
  obtain ⟨A, B, f, S, e1, e2, he⟩ := ho.outs
  rw [he w hw.word] at hk
  rw [← e1, ← e2]
  exact Adv.counter_sound S smp hw.1 hk

/-- If there is no match in the text, the counter shows 0. -/
theorem C56_nothing_to_count {re sep : Fsm} {smp : Bool} {w : List Nat} {k : Nat} (h : Adv.Shows re sep smp w k) (hw : Adv.Text w)
    (hn : ∀ v, v <:+: w → v ∉ re.Lang) : k = 0 := by
  rcases C56_never_too_many h hw with h | ⟨u, hu, hs⟩
  · exact h
  · exfalso
    cases hs with
    | one hm => exact hn _ hu hm
    | @more k x s v hx hs hm => exact hn v (List.IsInfix.trans ⟨x ++ s, [], by simp⟩ hu) hm

/-- If `sep` matches nothing, the counter always shows 0, even if there is a match in the text. -/
theorem C56_no_separators {re sep : Fsm} {smp : Bool} {w : List Nat} {k : Nat} (h : Adv.Shows re sep smp w k) (hw : Adv.Text w) (hs : ∀ v, v ∉ sep.Lang) : k = 0 := by
  obtain ⟨M, ho, hk⟩ := h.maxRun hw
  obtain ⟨A, B, f, S, e1, e2, he⟩ := ho.outs
  rw [he w hw.word] at hk
  rw [← e2] at hs
  obtain ⟨⟨p, hp, rfl⟩, -⟩ := Adv.maxRun_counter hk
  obtain ⟨u, hu, rfl⟩ := Adv.acts_prefix _ _ _ _ _ hp
  exact Adv.counter_dead S hs smp fun c hc => hw.1 c (hu.subset hc)

/-- **Not too few, at least one.** If `*simple` is not set, separators exist and there is a match in the text, the counter does not show 0. -/
theorem C56_something {re sep : Fsm} {w : List Nat} {k : Nat} (h : Adv.Shows re sep false w k) (hw : Adv.Text w) (hs : ∃ v, v ∈ sep.Lang) (h0 : w ≠ [])
    (hm : ∃ v, v <:+: w ∧ v ∈ re.Lang) : 1 ≤ k := by
  obtain ⟨M, ho, hk⟩ := h.maxRun hw
  obtain ⟨A, B, f, S, e1, e2, he⟩ := ho.outs
  rw [he w hw.word] at hk
  rw [← e1] at hm
  rw [← e2] at hs
  obtain ⟨u, hu, hle⟩ := Adv.counter_some S hs hw.1 h0 hm
  exact hle.trans ((Adv.maxRun_counter hk).2 _ (Adv.acts_of_prefix _ _ _ hu))

/-- **Exactly.** If `*simple` is not set, separators exist, and matches and separators have no characters in common and are not empty, the counter shows
the length of the longest series of matches in the text. -/
theorem C56_exact {re sep : Fsm} {w : List Nat} {k : Nat} (h : Adv.Shows re sep false w k) (hw : Adv.Text w) (hs : ∃ v, v ∈ sep.Lang)
    (ha : Apart re.Lang sep.Lang) : LongestSeries re.Lang sep.Lang w k := by
  obtain ⟨M, ho, hk⟩ := h.maxRun hw
  obtain ⟨A, B, f, S, e1, e2, he⟩ := ho.outs
  rw [he w hw.word] at hk
  rw [← e1, ← e2] at ha ⊢
  rw [← e2] at hs
  exact Adv.counter_exact S ha hs hw.1 hk

/-- Calls with small automata are legitimate, and `*simple` is not set: matches and separators have no characters in common and are not empty,
either language has a deterministic automaton with at most four states, and nine characters do not occur in them. -/
theorem C56_small {base : Nat} {re sep : Fsm} (h : re.Good) (h2 : sep.Good) (hnd : re.determined = false) (hnd2 : sep.determined = false) (ht : Adv.Untagged re)
    (ha : Apart re.Lang sep.Lang) (hs : ∃ v, v ∈ sep.Lang) (hsz : re.size ≤ 17) (hsz2 : sep.size ≤ 17)
    {σ τ : Type} [Fintype σ] [Fintype τ] (M : DFA Nat σ) (N : DFA Nat τ) (hM : ∀ w, IsWord w → (w ∈ M.accepts ↔ w ∈ re.Lang))
    (hN : ∀ w, IsWord w → (w ∈ N.accepts ↔ w ∈ sep.Lang)) (hσ : Fintype.card σ ≤ 4) (hτ : Fintype.card τ ≤ 4)
    (ho : ∀ c < 9, ¬ Occurs re.Lang c ∧ ¬ Occurs sep.Lang c) (hb : base % 8 = 0) (hb2 : base ≤ 2 ^ 63) :
    Adv.Call base re sep ∧ ∃ s, Adv.ctor base re sep = some (s, false) := by
  obtain ⟨A, hA⟩ := canonize_small h hsz
  obtain ⟨B, hB⟩ := canonize_small h2 hsz2
  have hcf : ∃ f, Adv.countingFsm re sep = some (f, (Adv.series A B).initial) := ⟨_, by unfold Adv.countingFsm; rw [hA, hB]; rfl⟩
  obtain ⟨f, hcf⟩ := hcf
  obtain ⟨a1, -, a3, -⟩ := Fsm.canonize_spec h hA
  obtain ⟨b1, -, b3, -⟩ := Fsm.canonize_spec h2 hB
  have sA := (C19_fewest_states h hnd hA M hM).trans hσ
  have sB := (C19_fewest_states h2 hnd2 hB N hN).trans hτ
  have hn := fun p => Adv.canonize_tags_none h hA (p := p)
  have h0 := fun q => Adv.canonize_untagged ht hA q
  have hS : Adv.Shape A B f := by
    have := Adv.shape a1 b1 hn h0 (fun p => Adv.canonize_tags_none h2 hB)
    unfold Adv.countingFsm at hcf
    rw [hA, hB] at hcf
    cases hcf
    exact this
  have hi : (Adv.series A B).initial = A.initial := (Adv.series_spec a1 b1 hn h0).2.2.1
  rw [hi] at hcf
  rw [← a3, ← b3] at ha
  rw [← b3] at hs
  obtain ⟨t, t1, t2, t3⟩ := Adv.full_run hS ha hs sA sB
  have hlet := Adv.letters_small h h2 hnd hnd2 ht hcf ho
  have htab : Adv.table re sep = some (Adv.minimize f.letters t, f.letters) := by
    unfold Adv.table
    rw [hcf]
    show ((Adv.determine f A.initial).bind fun t => some (Adv.minimize f.letters t, f.letters)) = _
    rw [t1]
    rfl
  have hfol : ∃ rel, Adv.Follows f.letters t (Adv.full f A.initial) f rel := by
    unfold Adv.determine at t1
    split at t1
    · rename_i r hr
      have t1 := Option.some.inj t1
      subst t1
      exact ⟨_, Adv.accept_follows false ((DTask.run_spec (t := (Adv.full f A.initial).task f) hS.wf.let_wf _).1 _ _ hr)⟩
    · obtain ⟨r, hr, rfl⟩ := Option.map_eq_some_iff.1 t1
      cases t2
  obtain ⟨rel, hfol⟩ := hfol
  have hmin := (Adv.minimize_size hS.wf.let_wf (Nat.lt_of_le_of_lt (Nat.zero_le _) hfol.init_lt) hfol.lt).trans t3
  refine ⟨⟨h, h2, ht, ⟨_, _, htab, hlet, ?_⟩, hb, hb2⟩, ?_⟩
  · exact (Nat.mul_le_mul hmin (Nat.mul_le_mul_right 8 hlet)).trans (by norm_num)
  · unfold Adv.ctor
    rw [htab]
    have : (Adv.minimize f.letters t).simple = false := t2
    exact ⟨_, by rw [Option.map_some]; dsimp only; rw [this]⟩

/-- Calls with the automata of `a` and `b` are legitimate and fall under all of the theorems above; after the text `abab…aba` the counter shows how many characters
`a` there are. -/
theorem C56_witness {base : Nat} (hb : base % 8 = 0) (hb2 : base ≤ 2 ^ 63) : Adv.Call base (Adv.single 97) (Adv.single 98) ∧
    Apart (Adv.single 97).Lang (Adv.single 98).Lang ∧ (∃ v, v ∈ (Adv.single 98).Lang) ∧
    ∃ s s', Adv.ctor base (Adv.single 97) (Adv.single 98) = some (s, false) ∧ Adv.ctorNoLimit base (Adv.single 97) (Adv.single 98) = some (s', false) ∧
      ∀ n, 2 * (2 * n + 1) < 2 ^ 32 → Adv.Text (Adv.alternating n) ∧
        ((scn takeAdvanced s).after (scn takeAdvanced s).initial (Adv.alternating n)).result 0 = n + 1 ∧
        ∃ st, (scnNoLimit s').after (scnNoLimit s').initial (Adv.alternating n) = some st ∧ st.result 0 = n + 1 := by
  have l97 : IsLetter 97 := by decide
  have l98 : IsLetter 98 := by decide
  obtain ⟨ha, ho⟩ := Adv.single_apart
  have hs : ∃ v, v ∈ (Adv.single 98).Lang := ⟨[98], (Adv.single_lang l98 _).2 rfl⟩
  obtain ⟨hc, s, h1⟩ := C56_small (base := base) (Adv.single_good l97) (Adv.single_good l98) rfl rfl (Adv.single_untagged 97) ha hs (by decide) (by decide)
    (Adv.singleDfa 97) (Adv.singleDfa 98) (fun w _ => by rw [Adv.singleDfa_mem, Adv.single_lang l97]) (fun w _ => by rw [Adv.singleDfa_mem, Adv.single_lang l98])
    (by decide) (by decide) ho hb hb2
  refine ⟨hc, ha, hs, ?_⟩
  obtain ⟨s1, s', smp, g1, g2, -, -, M, g3, g4, g5⟩ := C56_made hc
  rw [h1] at g1
  cases g1
  refine ⟨s, s', h1, g2, fun n hn => ?_⟩
  have ht : Adv.Text (Adv.alternating n) := by
    refine ⟨fun c hc => .inl ?_, by rw [Adv.alternating_length]; exact hn⟩
    unfold Adv.alternating at hc
    rcases List.mem_cons.1 hc with rfl | hc
    · decide
    · obtain ⟨l, hl, hc⟩ := List.mem_flatten.1 hc
      rw [List.eq_of_mem_replicate hl] at hc
      simp only [List.mem_cons, List.not_mem_nil, or_false] at hc
      omega
  have huniq : ∀ k, LongestSeries (Adv.single 97).Lang (Adv.single 98).Lang (Adv.alternating n) k → k = n + 1 := fun k hk => by
    have hl := Adv.alternating_longest n
    have := hk.2 _ hl.1
    have := hl.2 _ hk.1
    omega
  refine ⟨ht, huniq _ (C56_exact (.advanced g4 rfl g3 rfl) ht hs ha), ?_⟩
  obtain ⟨st, k1, -⟩ := (C47_nolimit_counts g5).2 _ ht.word ht.2
  exact ⟨st, k1, huniq _ (C56_exact (.noLimit g5 rfl g3 k1 rfl) ht hs ha)⟩

end Props
end Pire
