import Verif.Spec.Expr
import Verif.Proofs.Algebra
import Verif.Props.Construct
import Verif.Props.Transform

/-!
# Properties C07, C08, C18–C22: boolean operations, minimisation, the whole algebra

`f.Good` is the invariant of all automata the API can produce (C21 shows every operation establishes it): states and
letters in range, packed letters consistent with their class, the two hint flags truthful.
-/

namespace Pire.Props

open Pire Pire.Spec Pire.Fsm

/-! ### C07 -/

/-- Whenever `~a` returns, it accepts exactly the words `a` rejects. -/
theorem C07_complement {f g : Fsm} (h : f.Good) (hg : f.complement = some g) (w : List Nat) :
    w ∈ g.Lang ↔ IsWord w ∧ w ∉ f.Lang := by
  rw [(complement_spec h hg).2.1]; rfl

/-- `~a` throws only if, in the epsilon-free automaton, more than 200001 words lead to pairwise different sets of
states. -/
theorem C07_throws_only_if_too_big {f : Fsm} (h : f.Good) (hg : f.complement = none) :
    ∃ ws : List (List Nat), ws.length = 200002 ∧ (∀ w ∈ ws, IsWord w) ∧
      (ws.map fun w => {q | Run f.removeEpsilons.Edge f.initial w q}).Nodup := by
  rw [complement_eq] at hg
  split at hg
  · cases hg
  · rename_i hf
    have := determine_fail h.wf (Bool.eq_false_iff.2 hf)
    simp only [ne_eq, not_true_eq_false, if_false] at this
    obtain ⟨ws, h1, h2, h3⟩ := this
    refine ⟨ws, h1, h2, ?_⟩
    have hi := (removeEpsilons_spec h.wf).initial
    unfold reached at h3
    rw [hi] at h3
    exact h3

/-- In particular it never throws for an automaton with at most 17 states. -/
theorem C07_small_never_throws {f : Fsm} (h : f.Good) (hs : f.size ≤ 17) : ∃ g, f.complement = some g := by
  cases hg : f.complement with
  | some g => exact ⟨g, rfl⟩
  | none =>
    exfalso
    obtain ⟨ws, h1, h2, h3⟩ := C07_throws_only_if_too_big h hg
    have hs' := removeEpsilons_spec h.wf
    have hsub : ∀ w, ∃ s ∈ (Finset.range f.size).powerset, {q | Run f.removeEpsilons.Edge f.initial w q} = (s : Set Nat) := by
      intro w
      classical
      refine ⟨(Finset.range f.size).filter fun q => Run f.removeEpsilons.Edge f.initial w q, ?_, ?_⟩
      · rw [Finset.mem_powerset]; exact Finset.filter_subset _ _
      · ext q
        simp only [Set.mem_setOf_eq, Finset.coe_filter, Finset.mem_range]
        refine ⟨fun hr => ⟨?_, hr⟩, fun hr => hr.2⟩
        have := hs'.wf.run_lt hr (by rw [hs'.size]; exact h.wf.init_lt)
        rwa [hs'.size] at this
    choose S hS1 hS2 using hsub
    have hn : (ws.map S).Nodup := by
      refine List.Nodup.of_map (fun s : Finset Nat => (s : Set Nat)) ?_
      rw [List.map_map]
      convert h3 using 2
      funext w
      exact (hS2 w).symm
    have hc : (ws.map S).toFinset ⊆ (Finset.range f.size).powerset := by
      intro s hs
      rw [List.mem_toFinset] at hs
      obtain ⟨w, _, rfl⟩ := List.mem_map.1 hs
      exact hS1 w
    have := Finset.card_le_card hc
    rw [List.toFinset_card_of_nodup hn, List.length_map, h1, Finset.card_powerset, Finset.card_range] at this
    have h4 : 2 ^ f.size ≤ 2 ^ 17 := Nat.pow_le_pow_right (by decide) hs
    omega

/-- non-vacuity: complementing `Fsm().Append("ab")`. -/
example : ∃ g, (Fsm.init.appendStr [97, 98]).complement = some g ∧ [97] ∈ g.Lang ∧ [97, 98] ∉ g.Lang := by
  have hw : IsWord [97, 98] := by unfold IsWord; decide
  have h := appendStr_good Good.init init_raw hw
  obtain ⟨g, hg⟩ := C07_small_never_throws h (by simp [appendStr, appendChar, clearFinal, setFinal, Fsm.init])
  refine ⟨g, hg, ?_, ?_⟩
  · rw [C07_complement h hg, C02_literal_automaton hw]
    exact ⟨by unfold IsWord; decide, by decide⟩
  · rw [C07_complement h hg, C02_literal_automaton hw]
    simp

/-! ### C08 -/

theorem C08_intersection {f rhs g : Fsm} (h : f.Good) (h2 : rhs.Good) (hg : f.inter rhs = some g) (w : List Nat) :
    w ∈ g.Lang ↔ w ∈ f.Lang ∧ w ∈ rhs.Lang := by
  unfold Fsm.inter at hg
  simp only [Option.bind_eq_bind, Option.bind_eq_some_iff] at hg
  obtain ⟨r, hr, f', hf', hg⟩ := hg
  obtain ⟨r1, r2, -⟩ := complement_spec h2 hr
  obtain ⟨f1, f2, -⟩ := complement_spec h hf'
  have us := union_shape f1.wf f1.coh f1.alt r1.wf r1.coh r1.alt
  rw [C07_complement (f1.union r1) hg, us.lang, Language.mem_add, f2, r2]
  constructor
  · rintro ⟨hw, hn⟩
    have : ∀ L : Language Nat, w ∈ Spec.compl L ↔ IsWord w ∧ w ∉ L := fun L => Iff.rfl
    rw [this, this] at hn
    tauto
  · rintro ⟨ha, hb⟩
    refine ⟨h.wf.lang_word ha, ?_⟩
    rintro (hn | hn)
    · exact hn.2 ha
    · exact hn.2 hb

/-! ### C18, C19 -/

/-- `Minimize`: same language, no more states, and there is a map of old states onto new ones along which exactly the
accepted words are kept (so only equivalent states have been merged); no two new states are equivalent. -/
theorem C18_minimize {f : Fsm} (h : f.Good) (hd : f.determined = true) :
    f.minimize.Lang = f.Lang ∧ f.minimize.size ≤ f.size ∧
    ∃ cls : Nat → Nat, (∀ q < f.size, cls q < f.minimize.size ∧ f.minimize.LangFrom (cls q) = f.LangFrom q) ∧
      (∀ k < f.minimize.size, ∃ q < f.size, cls q = k) ∧ cls f.initial = f.minimize.initial := by
  obtain ⟨_, m2, m3, _, _, _, m7, _⟩ := (h.det hd).minimize
  exact ⟨m2, m3, m7⟩

/-- The minimised automaton is still deterministic and complete. -/
theorem C18_minimize_deterministic {f : Fsm} (h : f.Good) (hd : f.determined = true) :
    (∀ q < f.minimize.size, ∀ c, IsLetter c → ∃! p, f.minimize.Edge q c p) ∧ ∀ q p, ¬ f.minimize.Edge q Epsilon p := by
  obtain ⟨m1, -⟩ := (h.det hd).minimize
  refine ⟨?_, fun q p => m1.no_eps⟩
  intro q hq c hc
  obtain ⟨p, hp⟩ := m1.exists_edge hq hc
  exact ⟨p, hp, fun p' hp' => m1.edge_unique hp' hp⟩

theorem C19_no_equivalent_states {f : Fsm} (h : f.Good) (hd : f.determined = true) :
    ∀ k < f.minimize.size, ∀ k' < f.minimize.size, f.minimize.LangFrom k = f.minimize.LangFrom k' → k = k' :=
  (h.det hd).minimize.2.2.2.2.2.2.2

/-- After `Determine` + `Minimize` (that is `Canonize`) no deterministic machine for the same language, of any kind, has
fewer states. -/
theorem C19_fewest_states {f g : Fsm} (h : f.Good) (hnd : f.determined = false) {maxSize : Nat}
    (hg : f.canonize maxSize = some g) {σ : Type} [Fintype σ] (M : DFA Nat σ)
    (hM : ∀ w, IsWord w → (w ∈ M.accepts ↔ w ∈ f.Lang)) : g.size ≤ Fintype.card σ := by
  obtain ⟨c1, c2, c3, c4⟩ := canonize_spec h hg
  exact c1.size_le (canonize_reach h hnd hg) c4 M (by rw [c3]; exact hM)

/-! ### C20 -/

theorem C20_canonize {f g : Fsm} (h : f.Good) {maxSize : Nat} (hg : f.canonize maxSize = some g) :
    g.Lang = f.Lang ∧
    (∀ q < g.size, ∀ c, IsLetter c → ∃! p, g.Edge q c p) ∧ (∀ q p, ¬ g.Edge q Epsilon p) ∧
    (∀ k < g.size, ∀ k' < g.size, g.LangFrom k = g.LangFrom k' → k = k') := by
  obtain ⟨c1, c2, c3, c4⟩ := canonize_spec h hg
  refine ⟨c3, ?_, fun q p => c1.no_eps, c4⟩
  intro q hq c hc
  obtain ⟨p, hp⟩ := c1.exists_edge hq hc
  exact ⟨p, hp, fun p' hp' => c1.edge_unique hp' hp⟩

/-- `Canonize` throws only if more than `maxSize + 1` words lead to pairwise different sets of states. -/
theorem C20_throws_only_if_too_big {f : Fsm} (h : f.Good) {maxSize : Nat} (hg : f.canonize maxSize = none) :
    ∃ ws : List (List Nat), ws.length = (if maxSize ≠ 0 then maxSize else 200000) + 2 ∧ (∀ w ∈ ws, IsWord w) ∧
      (ws.map fun w => {q | Run f.removeEpsilons.Edge f.initial w q}).Nodup := by
  unfold Fsm.canonize at hg
  split at hg
  · cases hg
  · simp only at hg
    split at hg
    · cases hg
    · rename_i hf
      have := determine_fail h.wf (Bool.eq_false_iff.2 hf)
      unfold reached at this
      rw [(removeEpsilons_spec h.wf).initial] at this
      exact this

/-- The canonical form is unique: canonizing two automata of the same language gives the same automaton up to renaming
of states. -/
theorem C20_canonical {f₁ f₂ g₁ g₂ : Fsm} (h₁ : f₁.Good) (h₂ : f₂.Good) (n₁ : f₁.determined = false)
    (n₂ : f₂.determined = false) {m₁ m₂ : Nat} (c₁ : f₁.canonize m₁ = some g₁) (c₂ : f₂.canonize m₂ = some g₂)
    (hL : f₁.Lang = f₂.Lang) :
    ∃ π : Nat → Nat, Set.BijOn π {q | q < g₁.size} {q | q < g₂.size} ∧ π g₁.initial = g₂.initial ∧
      (∀ q < g₁.size, π q ∈ g₂.finals ↔ q ∈ g₁.finals) ∧
      ∀ q < g₁.size, ∀ p < g₁.size, ∀ c, IsLetter c → (g₂.Edge (π q) c (π p) ↔ g₁.Edge q c p) := by
  obtain ⟨a1, a2, a3, a4⟩ := canonize_spec h₁ c₁
  obtain ⟨b1, b2, b3, b4⟩ := canonize_spec h₂ c₂
  exact a1.iso b1 (canonize_reach h₁ n₁ c₁) (canonize_reach h₂ n₂ c₂) a4 b4 (by rw [a3, b3, hL])

/-- The canonical form of an automaton with `n` states has at most `2 ^ n` of them. -/
theorem C20_at_most_exponential {f g : Fsm} (h : f.Good) (hnd : f.determined = false) {maxSize : Nat}
    (hg : f.canonize maxSize = some g) : g.size ≤ 2 ^ f.size := by
  classical
  obtain ⟨c1, c2, c3, c4⟩ := canonize_spec h hg
  choose! w hw hr using canonize_reach h hnd hg
  let S : Nat → Finset Nat := fun k => (Finset.range f.size).filter fun q => Run f.Edge f.initial (w k) q
  have key : ∀ k < g.size, ∀ v, v ∈ g.LangFrom k ↔ ∃ q ∈ S k, v ∈ f.LangFrom q := by
    intro k hk v
    have e1 : v ∈ g.LangFrom k ↔ w k ++ v ∈ g.Lang := by
      constructor
      · rintro ⟨x, hx, hv⟩; exact ⟨x, hx, (hr k hk).trans hv⟩
      · rintro ⟨x, hx, hv⟩
        obtain ⟨y, hy1, hy2⟩ := hv.split
        rw [c1.run_unique (hr k hk) hy1]
        exact ⟨x, hx, hy2⟩
    rw [e1, c3]
    constructor
    · rintro ⟨x, hx, hv⟩
      obtain ⟨y, hy1, hy2⟩ := hv.split
      exact ⟨y, Finset.mem_filter.2 ⟨Finset.mem_range.2 (h.wf.run_lt hy1 h.wf.init_lt), hy1⟩, x, hx, hy2⟩
    · rintro ⟨q, hq, x, hx, hv⟩
      exact ⟨x, hx, (Finset.mem_filter.1 hq).2.trans hv⟩
  have hinj : Set.InjOn S (Finset.range g.size : Set Nat) := by
    intro k hk k' hk' he
    rw [Finset.mem_coe, Finset.mem_range] at hk hk'
    apply c4 k hk k' hk'
    ext v
    rw [key k hk, key k' hk', he]
  have hsub : (Finset.range g.size).image S ⊆ (Finset.range f.size).powerset := by
    intro s hs
    obtain ⟨k, -, rfl⟩ := Finset.mem_image.1 hs
    exact Finset.mem_powerset.2 (Finset.filter_subset _ _)
  have := Finset.card_le_card hsub
  rwa [Finset.card_image_of_injOn hinj, Finset.card_range, Finset.card_powerset, Finset.card_range] at this

/-- Doing it again changes the language no more. -/
theorem C20_idempotent_language {f g k : Fsm} (h : f.Good) {m m' : Nat} (hg : f.canonize m = some g)
    (hk : g.canonize m' = some k) : k.Lang = f.Lang := by
  obtain ⟨c1, c2, c3, c4⟩ := canonize_spec h hg
  rw [(canonize_spec (Good.of_det c1 c2) hk).2.2.1, c3]

/-- non-vacuity: the sample of C13–C16 is canonized successfully and satisfies the hypotheses. -/
example : sample.Good ∧ sample.determined = false ∧ ∃ g, sample.canonize 8 = some g := by
  have hd : sample.determined = false := by
    simp [sample, Fsm.connect, Fsm.resize, appendChar, clearFinal, setFinal, Fsm.init]
  refine ⟨.of_raw sample_wf sample_raw (.of_false rfl) hd, hd, ?_⟩
  have := C16_determine_succeeds (maxSize := 8) sample_wf (by simp [sample])
  exact ⟨_, by rw [Fsm.canonize, hd, if_neg (by simp)]; simp only; rw [if_pos this]⟩

/-! ### C21 -/

/-- All the numbers stored in an automaton are in range: this is what the unchecked accesses of the code need. -/
def InBounds (f : Fsm) : Prop :=
  f.initial < f.size ∧ (∀ q ∈ f.finals, q < f.size) ∧
  ∀ q c p, p ∈ f.dst q c → q < f.size ∧ c < 264 ∧ p < f.size

theorem WF.inBounds {f : Fsm} (h : f.WF) : InBounds f :=
  ⟨h.init_lt, h.fin_lt, fun _ _ _ hp => h.dst_lt hp⟩

theorem C21_good_in_bounds {f : Fsm} (h : f.Good) : InBounds f := WF.inBounds h.wf

/-- Every operation of the interface maps good automata to good automata. -/
theorem C21_operations_preserve_good {f g : Fsm} (h : f.Good) (h2 : g.Good) :
    Fsm.init.Good ∧ Fsm.makeFalse.Good ∧ (f.concat g).Good ∧ (f.union g).Good ∧ f.iterate.Good ∧
    (∀ n, (f.power n).Good) ∧ f.prependAnything.Good ∧ f.appendAnything.Good ∧ f.surround.Good ∧ f.reverse.Good ∧
    (∀ k, f.complement = some k → k.Good) ∧ (∀ k, f.inter g = some k → k.Good) ∧
    (∀ m k, f.canonize m = some k → k.Good) ∧ (∀ m, (f.determine m).2 = true → (f.determine m).1.Good) ∧
    (f.determined = true → f.minimize.Good) := by
  refine ⟨Good.init, Good.makeFalse, h.concat h2, h.union h2, h.iterate, fun n => power_good h n, h.prependAnything,
    h.appendAnything, h.surround, h.reverse, fun k hk => (complement_spec h hk).1, ?_, ?_, ?_, ?_⟩
  · intro k hk
    unfold Fsm.inter at hk
    simp only [Option.bind_eq_bind, Option.bind_eq_some_iff] at hk
    obtain ⟨r, hr, f', hf', hk⟩ := hk
    exact (complement_spec ((complement_spec h hf').1.union (complement_spec h2 hr).1) hk).1
  · intro m k hk
    obtain ⟨c1, c2, -⟩ := canonize_spec h hk
    exact .of_det c1 c2
  · intro m ok
    cases hf : f.determined with
    | true =>
      have : f.determine m = (f, true) := by simp [determine, hf]
      rw [this]; exact h
    | false => exact .of_det (determine_det h ok).1 ((determine_spec h.wf hf m).1 ok).2.2.2.2.1
  · intro hd
    obtain ⟨m1, -, -, m4, -⟩ := (h.det hd).minimize
    exact .of_det m1 m4

/-- The same for the operations that need an automaton whose letters have not been packed. -/
theorem C21_appends_preserve_good {f : Fsm} (h : f.Good) (hr : f.Raw) :
    (∀ s, IsWord s → (f.appendStr s).Good) ∧ (f.isAlt = false → f.appendDot.Good) ∧
    (∀ T k, f.isAlt = false → f.determined = false → (∀ t ∈ T, ∀ c ∈ t, c < 256) → f.appendStrings T = some k → k.Good) :=
  ⟨fun _ hs => appendStr_good h hr hs, fun ha => h.appendDot hr ha,
    fun _ _ ha hd hb hk => (appendStrings_good h hr ha hd hb hk).1⟩

/-! ### C22 -/

/-- The program an expression stands for: the API calls in evaluation order; `none` = one of them throws. -/
def build : Expr → Option Fsm
  | .empty => some Fsm.init
  | .nothing => some Fsm.makeFalse
  | .lit s => some (Fsm.init.appendStr s)
  | .dot => some Fsm.init.appendDot
  | .strings t => Fsm.init.appendStrings t
  | .cat a b => do let x ← build a; let y ← build b; return x.concat y
  | .alt a b => do let x ← build a; let y ← build b; return x.union y
  | .both a b => do let x ← build a; let y ← build b; x.inter y
  | .not a => do let x ← build a; x.complement
  | .star a => do let x ← build a; return x.iterate
  | .pow a n => do let x ← build a; return x.power n
  | .prependAny a => do let x ← build a; return x.prependAnything
  | .appendAny a => do let x ← build a; return x.appendAnything
  | .surround a => do let x ← build a; return x.surround
  | .reverse a => do let x ← build a; return x.reverse
  | .canon a m => do let x ← build a; x.canonize m

theorem build_spec (e : Expr) (ok : e.Ok) : ∀ f, build e = some f →
    f.Good ∧ f.Lang = e.den ∧ (e.mayStartFinal = false → f.initial ∉ f.finals) := by
  induction e with
  | empty =>
    intro f hf; cases hf
    exact ⟨Good.init, lang_init, by simp [Expr.mayStartFinal]⟩
  | nothing =>
    intro f hf; cases hf
    exact ⟨Good.makeFalse, lang_makeFalse, fun _ => by simp [Fsm.makeFalse, setFinal, Fsm.init]⟩
  | lit s =>
    intro f hf; cases hf
    refine ⟨appendStr_good Good.init init_raw ok, ?_, fun h => appendStr_initial_not_final WF.init ok ?_⟩
    · ext w; rw [C02_literal_automaton ok]; rfl
    · simpa [Expr.mayStartFinal] using h
  | dot =>
    intro f hf
    have hf' : f = Fsm.init.appendDot := by simpa only [build, Option.some.injEq, eq_comm] using hf
    subst hf'
    refine ⟨Good.init.appendDot init_raw rfl, ?_, fun _ => appendDot_initial_not_final WF.init⟩
    rw [lang_appendDot WF.init init_raw, lang_init]
    change (1 : Language Nat) * _ = _
    rw [one_mul]; rfl
  | strings t =>
    intro f hf
    obtain ⟨h1, h2, h3⟩ := appendStrings_good Good.init init_raw rfl rfl ok hf
    refine ⟨h1, ?_, fun _ => h3⟩
    rw [h2, lang_init]
    change (1 : Language Nat) * _ = _
    rw [one_mul]; rfl
  | cat a b iha ihb =>
    intro f hf
    simp only [build, Option.bind_eq_bind, Option.bind_eq_some_iff, Option.pure_def, Option.some.injEq] at hf
    obtain ⟨x, hx, y, hy, rfl⟩ := hf
    obtain ⟨a1, a2, -⟩ := iha ok.1 x hx
    obtain ⟨b1, b2, b3⟩ := ihb ok.2.1 y hy
    refine ⟨a1.concat b1, ?_, fun _ => concat_initial_not_final a1.wf a1.coh b1.wf b1.coh⟩
    rw [lang_concat a1.wf a1.coh b1.wf b1.coh (b3 ok.2.2), a2, b2]; rfl
  | alt a b iha ihb =>
    intro f hf
    simp only [build, Option.bind_eq_bind, Option.bind_eq_some_iff, Option.pure_def, Option.some.injEq] at hf
    obtain ⟨x, hx, y, hy, rfl⟩ := hf
    obtain ⟨a1, a2, -⟩ := iha ok.1 x hx
    obtain ⟨b1, b2, b3⟩ := ihb ok.2 y hy
    have us := union_shape a1.wf a1.coh a1.alt b1.wf b1.coh b1.alt
    refine ⟨a1.union b1, ?_, fun _ => us.init_not_fin⟩
    rw [us.lang, a2, b2]; rfl
  | both a b iha ihb =>
    intro f hf
    simp only [build, Option.bind_eq_bind, Option.bind_eq_some_iff] at hf
    obtain ⟨x, hx, y, hy, hf⟩ := hf
    obtain ⟨a1, a2, -⟩ := iha ok.1 x hx
    obtain ⟨b1, b2, b3⟩ := ihb ok.2 y hy
    have hg := (C21_operations_preserve_good a1 b1).2.2.2.2.2.2.2.2.2.2.2.1 f hf
    refine ⟨hg, ?_, fun _ => ?_⟩
    · ext w; rw [C08_intersection a1 b1 hf, a2, b2]; rfl
    · unfold Fsm.inter at hf
      simp only [Option.bind_eq_bind, Option.bind_eq_some_iff] at hf
      obtain ⟨r, hr, f', hf', hf⟩ := hf
      exact (complement_spec ((complement_spec a1 hf').1.union (complement_spec b1 hr).1) hf).2.2
  | not a iha =>
    intro f hf
    simp only [build, Option.bind_eq_bind, Option.bind_eq_some_iff] at hf
    obtain ⟨x, hx, hf⟩ := hf
    obtain ⟨a1, a2, -⟩ := iha ok x hx
    obtain ⟨c1, c2, c3⟩ := complement_spec a1 hf
    exact ⟨c1, by rw [c2, a2]; rfl, fun _ => c3⟩
  | star a iha =>
    intro f hf
    simp only [build, Option.bind_eq_bind, Option.bind_eq_some_iff, Option.pure_def, Option.some.injEq] at hf
    obtain ⟨x, hx, rfl⟩ := hf
    obtain ⟨a1, a2, -⟩ := iha ok x hx
    exact ⟨a1.iterate, by rw [lang_iterate a1.wf, a2]; rfl, fun _ => iterate_initial_not_final x⟩
  | pow a n iha =>
    intro f hf
    simp only [build, Option.bind_eq_bind, Option.bind_eq_some_iff, Option.pure_def, Option.some.injEq] at hf
    obtain ⟨x, hx, rfl⟩ := hf
    obtain ⟨a1, a2, a3⟩ := iha ok.1 x hx
    refine ⟨power_good a1 n, ?_, fun h => power_initial_not_final a1 (by simpa [Expr.mayStartFinal] using h)⟩
    rw [(power_spec a1.wf a1.coh (a3 ok.2) n).2.2, a2]; rfl
  | prependAny a iha =>
    intro f hf
    simp only [build, Option.bind_eq_bind, Option.bind_eq_some_iff, Option.pure_def, Option.some.injEq] at hf
    obtain ⟨x, hx, rfl⟩ := hf
    obtain ⟨a1, a2, -⟩ := iha ok x hx
    refine ⟨a1.prependAnything, by rw [lang_prependAnything a1.wf, a2]; rfl, fun _ => ?_⟩
    have h1 : x.prependAnything.initial = x.size := rfl
    have h2 : x.prependAnything.finals = x.finals := by simp [prependAnything]
    rw [h1, h2]
    exact fun h => absurd (a1.wf.fin_lt _ h) (lt_irrefl _)
  | appendAny a iha =>
    intro f hf
    simp only [build, Option.bind_eq_bind, Option.bind_eq_some_iff, Option.pure_def, Option.some.injEq] at hf
    obtain ⟨x, hx, rfl⟩ := hf
    obtain ⟨a1, a2, -⟩ := iha ok x hx
    exact ⟨a1.appendAnything, by rw [lang_appendAnything a1.wf, a2]; rfl, fun _ => appendAnything_initial_not_final a1.wf⟩
  | surround a iha =>
    intro f hf
    simp only [build, Option.bind_eq_bind, Option.bind_eq_some_iff, Option.pure_def, Option.some.injEq] at hf
    obtain ⟨x, hx, rfl⟩ := hf
    obtain ⟨a1, a2, -⟩ := iha ok x hx
    refine ⟨a1.surround, ?_, fun _ => appendAnything_initial_not_final a1.wf.prependAnything⟩
    rw [Fsm.surround, lang_appendAnything a1.wf.prependAnything, lang_prependAnything a1.wf, a2]; rfl
  | reverse a iha =>
    intro f hf
    simp only [build, Option.bind_eq_bind, Option.bind_eq_some_iff, Option.pure_def, Option.some.injEq] at hf
    obtain ⟨x, hx, rfl⟩ := hf
    obtain ⟨a1, a2, -⟩ := iha ok x hx
    exact ⟨a1.reverse, by rw [lang_reverse a1.wf, a2]; rfl, fun _ => reverse_initial_not_final a1.wf⟩
  | canon a m iha =>
    intro f hf
    simp only [build, Option.bind_eq_bind, Option.bind_eq_some_iff] at hf
    obtain ⟨x, hx, hf⟩ := hf
    obtain ⟨a1, a2, -⟩ := iha ok x hx
    obtain ⟨c1, c2, c3, -⟩ := canonize_spec a1 hf
    exact ⟨.of_det c1 c2, by rw [c3, a2]; rfl, by simp [Expr.mayStartFinal]⟩

/-- Full statement: every expression that builds accepts what it denotes. It is false for the operands excluded by
`Ok` (C04), so it is proved with that syntactic guard. -/
theorem C22_expressions_partial (e : Expr) (ok : e.Ok) {f : Fsm} (hf : build e = some f) (w : List Nat) :
    w ∈ f.Lang ↔ w ∈ e.den := by
  rw [(build_spec e ok f hf).2.1]

/-- Everything an admissible expression builds is in bounds. -/
theorem C22_in_bounds (e : Expr) (ok : e.Ok) {f : Fsm} (hf : build e = some f) : InBounds f :=
  C21_good_in_bounds (build_spec e ok f hf).1

/-- non-vacuity: `(ab | .*)` followed by the three-fold `x*y`. -/
example : (Expr.cat (.alt (.lit [97, 98]) (.star .dot)) (.pow (.cat (.star (.lit [120])) (.lit [121])) 3)).Ok ∧
    ∃ f, build (Expr.cat (.alt (.lit [97, 98]) (.star .dot)) (.pow (.cat (.star (.lit [120])) (.lit [121])) 3)) = some f := by
  refine ⟨?_, ?_⟩
  · simp only [Expr.Ok, Expr.mayStartFinal, IsWord]; decide
  · simp [build]

/-- The excluded case, at the level of expressions. -/
theorem C22_right_operand_empty_is_wrong (a : Expr) (ok : a.Ok) {f : Fsm} (hf : build (.cat a .empty) = some f) :
    f.Lang = 0 ∧ (Expr.cat a .empty).den = a.den := by
  simp only [build, Option.bind_eq_bind, Option.bind_eq_some_iff, Option.pure_def, Option.some.injEq] at hf
  obtain ⟨x, hx, y, rfl, rfl⟩ := hf
  have h := (build_spec a ok x hx).1
  exact ⟨C04_concat_with_empty_word_is_wrong h.wf h.coh, mul_one _⟩

end Pire.Props
