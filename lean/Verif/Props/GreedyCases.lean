import Verif.Props.Greedy
import Verif.Proofs.GreedySame

/-!
# C57: examples

Greedy counters of concrete regexps: cases that meet the hypotheses of `C57_simplified` and `C57_full`, and regexps for which the counters
are wrong.
-/

namespace Pire.Props
open Pire Pire.Spec Multi HalfFinal Greedy

section
variable {P : Policy} {base : Nat} {f : Fsm}

/-- What the counting states of the table add up to. -/
def tot (A : Tab) (D : Nat) (w : List Nat) : Nat := (w.inits.map fun u => (A.after D u).toAdd).sum

/-- States that can be reached in `n` steps. -/
def explore (A : Tab) (D : Nat) (ls : List Nat) : Nat → List HalfFinal.Greedy.DSt
  | 0 => [Tab.start]
  | n + 1 => ((explore A D ls n).flatMap fun s => s :: ls.map (A.next D s)).dedup

/-- All that has to be known about a table. Letters that are not in `ls` and not the end mark lead nowhere; `c₀` is one of them. -/
structure Known (A : Tab) (n : Nat) (reach co : Nat → List Nat) (ls : List Nat) (c₀ D : Nat) (R : List HalfFinal.Greedy.DSt) (v : List Nat) : Prop where
  min : Minimal A n reach co
  step : ∀ q c, c ∉ ls → A.step q c = none
  other : c₀ ∉ ls ∧ c₀ ≠ EndMark
  start : Tab.start ∈ R
  small : R.length ≤ 200001
  next : ∀ s ∈ R, ∀ c ∈ EndMark :: c₀ :: ls, A.next D s c ∈ R
  le : ∀ s ∈ R, s.toAdd ≤ D
  alive : ∀ s ∈ R, ((EndMark :: v).foldl (A.next D) s).toAdd ≠ 0
  word : IsWord v
  depth : D ≤ 1000

theorem Known.closed {A : Tab} {n : Nat} {r co : Nat → List Nat} {ls : List Nat} {c₀ D : Nat} {R : List HalfFinal.Greedy.DSt} {v : List Nat}
    (h : Known A n r co ls c₀ D R v) : ∀ s ∈ R, ∀ c, A.next D s c ∈ R := by
  intro s hs c
  by_cases hc : c ∈ EndMark :: c₀ :: ls
  · exact h.next s hs c hc
  · simp only [List.mem_cons, not_or] at hc
    have e : A.next D s c = A.next D s c₀ := by
      unfold Tab.next Tab.advance
      rw [if_neg hc.1, if_neg h.other.2]
      simp only [h.step _ c hc.2.2, h.step _ c₀ h.other.1]
    rw [e]
    exact h.next s hs c₀ (by simp)

theorem Known.mem {A : Tab} {n : Nat} {r co : Nat → List Nat} {ls : List Nat} {c₀ D : Nat} {R : List HalfFinal.Greedy.DSt} {v : List Nat}
    (h : Known A n r co ls c₀ D R v) (u : List Nat) : ∀ s ∈ R, u.foldl (A.next D) s ∈ R := by
  induction u with
  | nil => intro s hs; exact hs
  | cons c u ih => intro s hs; exact ih _ (h.closed s hs c)

/-- The greedy counter of a regexp that has a table. -/
theorem counter_of_table {A : Tab} {n : Nat} {r co : Nat → List Nat} {ls : List Nat} {c₀ D : Nat} {R : List HalfFinal.Greedy.DSt} {v : List Nat}
    (hA : Known A n r co ls c₀ D R v) (h : f.Good) (hs : f.size ≤ 17) (hL : ∀ w, w ∈ f.Lang ↔ A.acc 0 w = true)
    (sim : Bool) (depth : Nat) (hD : (if sim then 1 else depth) = D) : Settles f D ∧ ∃ g, makeGreedyCounter sim f depth = some g ∧
    ∀ (P : Policy) (base : Nat), Typedef P → base % 8 = 0 → base ≤ 2 ^ 63 → ∀ w, IsWord w → tot A D w < 2 ^ 64 →
      ((HalfFinal.scn P (ofHalfFinal P base g)).after (HalfFinal.scn P (ofHalfFinal P base g)).initial w).result 0 = tot A D w ∧
      ((HalfFinal.scn P (ofHalfFinal P base g)).dead ((HalfFinal.scn P (ofHalfFinal P base g)).after (HalfFinal.scn P (ofHalfFinal P base g)).initial w) = true ↔
        sim = false ∧ (A.after D w).toAdd.testBit 1 = true) := by
  obtain ⟨k, hk⟩ := canonize_small h hs
  obtain ⟨kd, -, kl, kmin⟩ := Fsm.canonize_spec h hk
  have hdb := doubled_of kd
  obtain ⟨φ, hsame⟩ := same_of hA.min kd kmin hdb fun w _ => by rw [kl]; exact hL w
  have hD64 : D < 2 ^ 64 := by have := hA.depth; omega
  have hset : Settles f D := ⟨k, hk, settles_table hdb hsame hD64 hA.start (fun s hs c _ => hA.closed s hs c) hA.small⟩
  refine ⟨hset, ?_⟩
  obtain ⟨g, hg⟩ : ∃ g, makeGreedyCounter sim f depth = some g := by
    unfold makeGreedyCounter
    rw [hk]
    exact ⟨_, rfl⟩
  refine ⟨g, hg, fun P base hP hal hb w hw hlt => ?_⟩
  obtain ⟨k', E, b, hk', kd', kl', hdb', hbt, hout, rfl, hE⟩ := greedy_built h hg (Or.inl (by rw [hD]; exact hset))
  have hED : E = D := by
    rcases hE with h | h
    · rw [h, hD]
    · rw [hD] at h; exact absurd hset h.2
  subst hED
  rw [hk] at hk'
  cases hk'
  have hrel : ∀ u, IsWord u → (after (HalfFinal.Greedy.doubled k.removeDeadEnds) E u).toAdd = (A.after E u).toAdd := fun u hu => (rel_after hsame hD64 hu).toAdd
  have hle : ∀ u, IsWord u → (after (HalfFinal.Greedy.doubled k.removeDeadEnds) E u).toAdd ≤ E := fun u hu => by
    rw [hrel u hu]
    exact hA.le _ (hA.mem u _ hA.start)
  have hlive : ∀ u, IsWord u → ∃ z, IsWord z ∧ (after (HalfFinal.Greedy.doubled k.removeDeadEnds) E (u ++ z)).toAdd ≠ 0 := fun u hu => by
    have hz : IsWord (EndMark :: v) := fun c hc => by
      rcases List.mem_cons.1 hc with rfl | hc
      · decide
      · exact hA.word c hc
    refine ⟨_, hz, ?_⟩
    rw [hrel _ fun c hc => (List.mem_append.1 hc).elim (hu c) (hz c)]
    have e : A.after E (u ++ EndMark :: v) = (EndMark :: v).foldl (A.next E) (A.after E u) := by unfold Tab.after; rw [List.foldl_append]
    rw [e]
    exact hA.alive _ (hA.mem u _ hA.start)
  have hsum : sumAdd (HalfFinal.Greedy.doubled k.removeDeadEnds) E w = tot A E w := by
    unfold sumAdd tot
    refine congrArg List.sum (List.map_congr_left fun u hu => ?_)
    exact hrel u fun c hc => hw c (((List.mem_inits _ _).1 hu).subset hc)
  cases sim with
  | false =>
    obtain ⟨r1, r2⟩ := full_counter' (base := base) hP.real hA.depth hle hlive hbt hout hal hb hw
    rw [hsum, Nat.mod_eq_of_lt hlt] at r1
    rw [hrel w hw] at r2
    exact ⟨r1, r2.trans ⟨fun h => ⟨rfl, h⟩, fun h => h.2⟩⟩
  | true =>
    have h1 : E = 1 := hD.symm
    subst h1
    obtain ⟨r1, r2⟩ := simple_counter' (base := base) hP.real hle hlive hbt hout hal hb hw
    rw [hsum, Nat.mod_eq_of_lt hlt] at r1
    exact ⟨r1, ⟨fun h => absurd (h.symm.trans r2) (by decide), nofun⟩⟩

end

/-- A table by its lists: final states, and transitions. -/
def mk (fins : List Nat) (edges : List (Nat × Nat × Nat)) : Tab where
  fin q := fins.contains q
  step q c := (edges.find? fun e => e.1 == q && e.2.1 == c).map fun e => e.2.2

/-- Checks of `Minimal`. -/
theorem minimal_mk {fins : List Nat} {edges : List (Nat × Nat × Nat)} {n : Nat} {r co : List (List Nat)} {vs : List (List Nat)}
    (pos : 0 < n) (nofin : (mk fins edges).fin 0 = false) (closed : ∀ e ∈ edges, e.2.2 < n) (zero : r.getD 0 [] = [])
    (word : ∀ q < n, ∀ c ∈ r.getD q [], IsLetter c) (run : ∀ q < n, (mk fins edges).run 0 (r.getD q []) = some q)
    (coWord : ∀ q < n, ∀ c ∈ co.getD q [], IsLetter c) (coAcc : ∀ q < n, (mk fins edges).acc q (co.getD q []) = true)
    (differ : ∀ p < n, ∀ q < n, p ≠ q → ∃ v ∈ vs, (∀ c ∈ v, IsLetter c) ∧ (mk fins edges).acc p v ≠ (mk fins edges).acc q v) :
    Minimal (mk fins edges) n (fun q => r.getD q []) (fun q => co.getD q []) := by
  refine ⟨pos, nofin, fun q hq c p h => ?_, zero, word, run, coWord, coAcc, fun p hp q hq hne => ?_⟩
  · obtain ⟨e, he, rfl⟩ := Option.map_eq_some_iff.1 h
    exact closed e (List.mem_of_find?_eq_some he)
  · obtain ⟨v, -, h⟩ := differ p hp q hq hne
    exact ⟨v, h⟩

theorem step_mk {fins : List Nat} {edges : List (Nat × Nat × Nat)} (q c : Nat) (h : c ∉ edges.map fun e => e.2.1) : (mk fins edges).step q c = none := by
  show (edges.find? _).map _ = none
  rw [Option.map_eq_none_iff, List.find?_eq_none]
  intro e he
  simp only [Bool.and_eq_true, beq_iff_eq, not_and]
  rintro - rfl
  exact h (List.mem_map.2 ⟨e, he, rfl⟩)

/-- A finite language by its table. -/
theorem acc_finite {fins : List Nat} {edges : List (Nat × Nat × Nat)} {n : Nat} {W : List (List (List Nat))}
    (closed : ∀ e ∈ edges, e.2.2 < n) (h1 : ∀ q < n, (mk fins edges).fin q = decide ([] ∈ W.getD q []))
    (h2 : ∀ q < n, ∀ w ∈ W.getD q [], w ≠ [] → ∃ e ∈ edges, (mk fins edges).step q (w.headD 0) = some e.2.2 ∧ w.tail ∈ W.getD e.2.2 [])
    (h3 : ∀ e ∈ edges, ∀ v ∈ W.getD e.2.2 [], e.2.1 :: v ∈ W.getD e.1 []) (w : List Nat) :
    ∀ q < n, ((mk fins edges).acc q w = true ↔ w ∈ W.getD q []) := by
  induction w with
  | nil => intro q hq; show (mk fins edges).fin q = true ↔ _; rw [h1 q hq, decide_eq_true_iff]
  | cons c w ih =>
    intro q hq
    rw [Tab.acc_cons]
    cases hs : (mk fins edges).step q c with
    | none =>
      simp only [Option.map_none, Option.getD_none, Bool.false_eq_true, false_iff]
      intro hw
      obtain ⟨e, -, he, -⟩ := h2 q hq _ hw (by simp)
      rw [List.headD_cons, hs] at he
      cases he
    | some p =>
      obtain ⟨e, he, rfl⟩ := Option.map_eq_some_iff.1 hs
      have hmem := List.mem_of_find?_eq_some he
      have hp := List.find?_some he
      simp only [Bool.and_eq_true, beq_iff_eq] at hp
      simp only [Option.map_some, Option.getD_some]
      rw [ih _ (closed e hmem)]
      constructor
      · intro hv
        have := h3 e hmem w hv
        rw [hp.1, hp.2] at this
        exact this
      · intro hw
        obtain ⟨e', -, he', hv⟩ := h2 q hq _ hw (by simp)
        rw [List.headD_cons, hs] at he'
        rw [Option.some.inj he']
        exact hv

/-- The number of matches of a greedy scan, by the table. -/
def scanTab (A : Tab) : Nat → List Nat → Nat
  | 0, _ => 0
  | k + 1, w =>
    if w = [] then 0
    else
      let n := Nat.findGreatest (fun n => 0 < n ∧ A.acc 0 (w.take n) = true) w.length
      if n = 0 then scanTab A k w.tail else scanTab A k (w.drop n) + 1

theorem scanTab_spec {A : Tab} {L : Language Nat} (hL : ∀ w, w ∈ L ↔ A.acc 0 w = true) :
    ∀ (k : Nat) (w : List Nat), w.length ≤ k → GreedyMatches L w (scanTab A k w) := by
  intro k
  induction k with
  | zero =>
    intro w hw
    have : w = [] := List.length_eq_zero_iff.1 (by omega)
    subst this
    exact .done
  | succ k ih =>
    intro w hw
    unfold scanTab
    by_cases h0 : w = []
    · subst h0; rw [if_pos rfl]; exact .done
    · rw [if_neg h0]
      simp only
      obtain ⟨n, hn⟩ : ∃ n, n = Nat.findGreatest (fun n => 0 < n ∧ A.acc 0 (w.take n) = true) w.length := ⟨_, rfl⟩
      rw [← hn]
      have hg : ∀ m, 0 < m → m ≤ w.length → w.take m ∈ L → m ≤ n := fun m h1 h2 h3 => by
        rw [hn]; exact Nat.le_findGreatest h2 ⟨h1, (hL _).1 h3⟩
      obtain ⟨c, t, rfl⟩ := List.exists_cons_of_ne_nil h0
      by_cases hz : n = 0
      · rw [if_pos hz]
        refine .skip (fun u hu hp hm => ?_) (ih t (by simp at hw; omega))
        have := hg u.length (List.length_pos_iff.2 hu) hp.length_le (by rw [← List.prefix_iff_eq_take.1 hp]; exact hm)
        have := List.length_pos_iff.2 hu
        omega
      · rw [if_neg hz]
        have hsp := Nat.findGreatest_of_ne_zero (P := fun n => 0 < n ∧ A.acc 0 ((c :: t).take n) = true) hn.symm hz
        have hle : n ≤ (c :: t).length := by rw [hn]; exact Nat.findGreatest_le _
        have key : GreedyMatches L ((c :: t).take n ++ (c :: t).drop n) (scanTab A k ((c :: t).drop n) + 1) := by
          refine .take ⟨?_, ?_, (hL _).2 hsp.2, fun u hp hm => ?_⟩ (ih _ ?_)
          · intro e
            have := congrArg List.length e
            rw [List.length_take, Nat.min_eq_left hle] at this
            exact hz this
          · exact List.prefix_append _ _
          · rw [List.take_append_drop] at hp
            rw [List.length_take, Nat.min_eq_left hle]
            rcases Nat.eq_zero_or_pos u.length with h | h
            · omega
            · exact hg u.length h hp.length_le (by rw [← List.prefix_iff_eq_take.1 hp]; exact hm)
          · rw [List.length_drop]
            have := hsp.1
            omega
        rw [List.take_append_drop] at key
        exact key

/-- The regexp that is built by an expression. -/
theorem build_small {e : Expr} (ok : e.Ok) (hs : ((build e).any fun f => decide (f.size ≤ 17)) = true) : ∃ f, build e = some f ∧ f.Good ∧ f.size ≤ 17 ∧ f.Lang = e.den := by
  cases hb : build e with
  | none => rw [hb] at hs; cases hs
  | some f =>
    rw [hb] at hs
    obtain ⟨hg, hl, -⟩ := build_spec e ok f hb
    exact ⟨f, rfl, hg, by simpa using hs, hl⟩

/-! ### `a+` -/

/-- The table of `a+`. -/
def plusTab : Tab := mk [1] [(0, 97, 1), (1, 97, 1)]

theorem plus_known : Known plusTab 2 (fun q => [[], [97]].getD q []) (fun q => [[97], []].getD q []) [97, 97] 0 1 (explore plusTab 1 [97, 0, 259] 4) [97] where
  min := minimal_mk (vs := [[]]) (by decide) (by decide) (by decide) (by decide) (by decide) (by decide) (by decide) (by decide) (by decide)
  step q c h := step_mk q c h
  other := by decide
  start := by decide +kernel
  small := by decide +kernel
  next := by decide +kernel
  le := by decide +kernel
  alive := by decide +kernel
  word := by unfold IsWord; decide
  depth := by decide

/-- The regexp `a+`. -/
def plusExpr : Expr := .cat (.lit [97]) (.star (.lit [97]))

theorem plus_acc (w : List Nat) : plusTab.acc 1 w = true ↔ w ∈ KStar.kstar (Spec.single [97]) := by
  induction w with
  | nil => exact ⟨fun _ => Language.nil_mem_kstar _, fun _ => rfl⟩
  | cons c w ih =>
    rw [Tab.acc_cons]
    by_cases hc : c = 97
    · subst hc
      show plusTab.acc 1 w = true ↔ _
      rw [ih]
      constructor
      · intro h
        rw [← Language.one_add_self_mul_kstar_eq_kstar]
        exact Or.inr ⟨[97], rfl, w, h, rfl⟩
      · intro h
        rw [← Language.one_add_self_mul_kstar_eq_kstar] at h
        rcases h with h | ⟨a, ha, b, hb, e⟩
        · cases h
        · cases ha
          have : b = w := by simpa using e
          exact this ▸ hb
    · have hn : plusTab.step 1 c = none := step_mk 1 c (by simp [hc])
      rw [hn]
      simp only [Option.map_none, Option.getD_none, Bool.false_eq_true, false_iff]
      intro h
      rw [← Language.one_add_self_mul_kstar_eq_kstar] at h
      rcases h with h | ⟨a, ha, b, hb, e⟩
      · cases h
      · cases ha
        simp at e
        exact hc e.1.symm

theorem plus_lang (w : List Nat) : w ∈ plusExpr.den ↔ plusTab.acc 0 w = true := by
  constructor
  · rintro ⟨a, ha, b, hb, rfl⟩
    cases ha
    exact (plus_acc b).2 hb
  · intro h
    match w with
    | [] => exact absurd h (by decide)
    | c :: w =>
      rw [Tab.acc_cons] at h
      by_cases hc : c = 97
      · subst hc
        exact ⟨[97], rfl, w, (plus_acc w).1 h, rfl⟩
      · rw [show plusTab.step 0 c = none from step_mk 0 c (by simp [hc])] at h
        cases h

/-- Matches do not lie inside unfinished ones if every nonempty beginning of a match is a match. -/
theorem withinDepth_one {L : Language Nat} (h : ∀ x, Viable L x → x = [] ∨ x ∈ L) : WithinDepth L 1 := by
  have hz : ∀ j, GreedyMatches L [] j → j < 1 := fun j hj => by rw [greedy_unique hj, tokens_nil]; omega
  rintro x j hx (⟨u, v, rfl, ⟨h1, h2, h3, h4⟩, hg⟩ | ⟨hn, hg⟩)
  · rcases h _ hx with h | h
    · exact absurd (List.append_eq_nil_iff.1 h).1 h1
    · have := h4 _ (List.prefix_refl _) h
      have hv : v = [] := List.length_eq_zero_iff.1 (by rw [List.length_append] at this; omega)
      subst hv
      exact hz j hg
  · rcases h _ hx with rfl | h
    · exact hz j hg
    · by_cases h0 : x = []
      · subst h0; exact hz j hg
      · exact absurd h (hn x h0 (List.prefix_refl _))

/-- `C57_simplified` applies to `a+`: in `aabaa` its counter finds two matches. -/
example (P : Policy) (hP : Typedef P) (base : Nat) (hal : base % 8 = 0) (hb : base ≤ 2 ^ 63) : ∃ f g, build plusExpr = some f ∧
    makeGreedyCounter true f = some g ∧
    ((HalfFinal.scn P (ofHalfFinal P base g)).after (HalfFinal.scn P (ofHalfFinal P base g)).initial [97, 97, 98, 97, 97]).result 0 = 2 := by
  have ok : plusExpr.Ok := ⟨show IsWord [97] by unfold IsWord; decide, show IsWord [97] by unfold IsWord; decide, rfl⟩
  obtain ⟨f, hf, hg, hs, hl⟩ := build_small ok (by decide +kernel)
  have hL : ∀ w, w ∈ f.Lang ↔ plusTab.acc 0 w = true := fun w => by rw [hl]; exact plus_lang w
  obtain ⟨hset, g, hgr, -⟩ := counter_of_table plus_known hg hs hL true 10 rfl
  refine ⟨f, g, hf, hgr, ?_⟩
  have hd : WithinDepth f.Lang 1 := by
    refine withinDepth_one ?_
    rintro x ⟨v, hv⟩
    rw [hL] at hv
    unfold Tab.acc at hv
    rw [Tab.run_append] at hv
    rcases List.eq_nil_or_concat x with rfl | ⟨y, c, rfl⟩
    · exact Or.inl rfl
    · right
      rw [List.concat_eq_append] at hv ⊢
      rw [hL]
      unfold Tab.acc
      rw [Tab.run_append] at hv ⊢
      cases h1 : plusTab.run 0 y with
      | none => rw [h1] at hv; cases hv
      | some q =>
        rw [h1] at hv
        show ((plusTab.run q [c]).map plusTab.fin).getD false = true
        have hv' : (((plusTab.run q [c]).bind fun p => plusTab.run p v).map plusTab.fin).getD false = true := hv
        have e : plusTab.run q [c] = plusTab.step q c := by
          show (plusTab.step q c).bind (fun p => some p) = _
          cases plusTab.step q c <;> rfl
        rw [e] at hv' ⊢
        cases h2 : plusTab.step q c with
        | none => rw [h2] at hv'; cases hv'
        | some p =>
          obtain ⟨x, hx, rfl⟩ := Option.map_eq_some_iff.1 h2
          have := List.mem_of_find?_eq_some hx
          simp only [List.mem_cons, List.not_mem_nil, or_false] at this
          rcases this with rfl | rfl <;> rfl
  refine (C57_simplified hP hg hgr hset (by rw [hL]; decide) ⟨[97], by rw [hL]; decide, by decide⟩ hd hal hb (by unfold IsWord; decide) (by decide)
    (scanTab_spec hL 5 _ (by decide)) (by decide +kernel)).1.trans (by decide +kernel)


/-- The automaton of `a+`. -/
def plusDfa : DFA Nat (Fin 3) where
  step q c := if c = 97 then (match q with | 0 => 1 | 1 => 1 | _ => 2) else 2
  start := 0
  accept := {1}

theorem plusDfa_accepts (w : List Nat) : w ∈ plusDfa.accepts ↔ plusTab.acc 0 w = true := by
  have hs : ∀ q c, plusDfa.step q c = if c = 97 then (match q with | 0 => 1 | 1 => 1 | _ => 2) else 2 := fun _ _ => rfl
  have dead : ∀ w : List Nat, plusDfa.evalFrom 2 w = 2 := by
    intro w
    induction w with
    | nil => rfl
    | cons c w ih =>
      rw [DFA.evalFrom_cons, hs]
      have : (if c = 97 then (match (2 : Fin 3) with | 0 => 1 | 1 => 1 | _ => 2) else 2 : Fin 3) = 2 := by split <;> rfl
      rw [this]; exact ih
  have key : ∀ (w : List Nat) (b : Bool), (plusDfa.evalFrom (if b then 1 else 0) w = 1 ↔ plusTab.acc (if b then 1 else 0) w = true) := by
    intro w
    induction w with
    | nil => intro b; cases b <;> decide
    | cons c w ih =>
      intro b
      rw [DFA.evalFrom_cons, hs, Tab.acc_cons]
      by_cases hc : c = 97
      · subst hc
        cases b <;> exact ih true
      · rw [if_neg hc, dead, show plusTab.step _ c = none from step_mk _ c (by simp [hc])]
        simp
  rw [DFA.mem_accepts]
  exact key w false

/-- `C57_small_settles` applies to `a+`. -/
example : ∃ f k, build plusExpr = some f ∧ f.Good ∧ f.canonize 0 = some k ∧ (k.size * (1 * 2) + 1) ^ k.size * ((1 + 1) * 1) ≤ 200001 := by
  have ok : plusExpr.Ok := ⟨show IsWord [97] by unfold IsWord; decide, show IsWord [97] by unfold IsWord; decide, rfl⟩
  obtain ⟨f, hf, hg, hs, hl⟩ := build_small ok (by decide +kernel)
  have hnd : ((build plusExpr).all fun f => !f.determined) = true := by decide +kernel
  rw [hf] at hnd
  obtain ⟨k, hk⟩ := canonize_small hg hs
  have hsz := canonize_size_le hg (by simpa using hnd) hk plusDfa fun w _ => by rw [plusDfa_accepts, hl]; exact (plus_lang w).symm
  refine ⟨f, k, hf, hg, hk, ?_⟩
  rw [Fintype.card_fin] at hsz
  interval_cases k.size <;> decide

/-! ### `abc|b` -/

/-- The table of `abc|b`. -/
def abcBTab : Tab := mk [3] [(0, 97, 1), (0, 98, 3), (1, 98, 2), (2, 99, 3)]

theorem abcB_known10 : Known abcBTab 4 (fun q => [[], [97], [97, 98], [98]].getD q []) (fun q => [[98], [98, 99], [99], []].getD q []) [97, 98, 98, 99] 0 10
    (explore abcBTab 10 (0 :: 259 :: [97, 98, 98, 99]) 6) [98] where
  min := minimal_mk (vs := [[], [98], [98, 99], [99]]) (by decide +kernel) (by decide +kernel) (by decide +kernel) (by decide +kernel) (by decide +kernel) (by decide +kernel) (by decide +kernel) (by decide +kernel) (by decide +kernel)
  step q c h := step_mk q c h
  other := by decide
  start := by decide +kernel
  small := by decide +kernel
  next := by decide +kernel
  le := by decide +kernel
  alive := by decide +kernel
  word := by unfold IsWord; decide
  depth := by decide

/-- The regexp `abc|b`. -/
def abcBExpr : Expr := .alt (.lit [97, 98, 99]) (.lit [98])

theorem abcB_lang (w : List Nat) : w ∈ abcBExpr.den ↔ abcBTab.acc 0 w = true := by
  unfold abcBTab
  rw [acc_finite (n := 4) (W := [[[97, 98, 99], [98]], [[98, 99]], [[99]], [[]]]) (by decide +kernel) (by decide +kernel) (by decide +kernel) (by decide +kernel) w 0 (by decide +kernel)]
  show ((w = [97, 98, 99]) ∨ w = [98]) ↔ _
  simp only [List.getD_cons_zero, List.mem_cons, List.not_mem_nil, or_false]

theorem abcB_built : ∃ f, build abcBExpr = some f ∧ f.Good ∧ f.size ≤ 17 ∧ f.Lang = abcBExpr.den ∧ ∀ w, w ∈ f.Lang ↔ abcBTab.acc 0 w = true := by
  have ok : abcBExpr.Ok := ⟨show IsWord _ by unfold IsWord; decide, show IsWord _ by unfold IsWord; decide⟩
  obtain ⟨f, hf, hg, hs, hl⟩ := build_small ok (by decide +kernel)
  exact ⟨f, hf, hg, hs, hl, fun w => by rw [hl]; exact abcB_lang w⟩

/-! ### `a|abc|b` -/

/-- The table of `a|abc|b`. -/
def aAbcBTab : Tab := mk [1, 3] [(0, 97, 1), (0, 98, 3), (1, 98, 2), (2, 99, 3)]

theorem aAbcB_known1 : Known aAbcBTab 4 (fun q => [[], [97], [97, 98], [98]].getD q []) (fun q => [[98], [98, 99], [99], []].getD q []) [97, 98, 98, 99] 0 1
    (explore aAbcBTab 1 (0 :: 259 :: [97, 98, 98, 99]) 6) [98] where
  min := minimal_mk (vs := [[], [98], [98, 99], [99]]) (by decide +kernel) (by decide +kernel) (by decide +kernel) (by decide +kernel) (by decide +kernel) (by decide +kernel) (by decide +kernel) (by decide +kernel) (by decide +kernel)
  step q c h := step_mk q c h
  other := by decide
  start := by decide +kernel
  small := by decide +kernel
  next := by decide +kernel
  le := by decide +kernel
  alive := by decide +kernel
  word := by unfold IsWord; decide
  depth := by decide

theorem aAbcB_known10 : Known aAbcBTab 4 (fun q => [[], [97], [97, 98], [98]].getD q []) (fun q => [[98], [98, 99], [99], []].getD q []) [97, 98, 98, 99] 0 10
    (explore aAbcBTab 10 (0 :: 259 :: [97, 98, 98, 99]) 6) [98] where
  min := minimal_mk (vs := [[], [98], [98, 99], [99]]) (by decide +kernel) (by decide +kernel) (by decide +kernel) (by decide +kernel) (by decide +kernel) (by decide +kernel) (by decide +kernel) (by decide +kernel) (by decide +kernel)
  step q c h := step_mk q c h
  other := by decide
  start := by decide +kernel
  small := by decide +kernel
  next := by decide +kernel
  le := by decide +kernel
  alive := by decide +kernel
  word := by unfold IsWord; decide
  depth := by decide

/-- The regexp `a|abc|b`. -/
def aAbcBExpr : Expr := .alt (.alt (.lit [97]) (.lit [97, 98, 99])) (.lit [98])

theorem aAbcB_lang (w : List Nat) : w ∈ aAbcBExpr.den ↔ aAbcBTab.acc 0 w = true := by
  unfold aAbcBTab
  rw [acc_finite (n := 4) (W := [[[97], [97, 98, 99], [98]], [[], [98, 99]], [[99]], [[]]]) (by decide +kernel) (by decide +kernel) (by decide +kernel) (by decide +kernel) w 0 (by decide +kernel)]
  show (((w = [97]) ∨ w = [97, 98, 99]) ∨ w = [98]) ↔ _
  simp only [List.getD_cons_zero, List.mem_cons, List.not_mem_nil, or_false, or_assoc]

theorem aAbcB_built : ∃ f, build aAbcBExpr = some f ∧ f.Good ∧ f.size ≤ 17 ∧ f.Lang = aAbcBExpr.den ∧ ∀ w, w ∈ f.Lang ↔ aAbcBTab.acc 0 w = true := by
  have ok : aAbcBExpr.Ok := ⟨⟨show IsWord _ by unfold IsWord; decide, show IsWord _ by unfold IsWord; decide⟩, show IsWord _ by unfold IsWord; decide⟩
  obtain ⟨f, hf, hg, hs, hl⟩ := build_small ok (by decide +kernel)
  exact ⟨f, hf, hg, hs, hl, fun w => by rw [hl]; exact aAbcB_lang w⟩

/-! ### `abbc|b` -/

/-- The table of `abbc|b`. -/
def abbcBTab : Tab := mk [4] [(0, 97, 1), (0, 98, 4), (1, 98, 2), (2, 98, 3), (3, 99, 4)]

theorem abbcB_known1 : Known abbcBTab 5 (fun q => [[], [97], [97, 98], [97, 98, 98], [98]].getD q []) (fun q => [[98], [98, 98, 99], [98, 99], [99], []].getD q []) [97, 98, 98, 98, 99] 0 1
    (explore abbcBTab 1 (0 :: 259 :: [97, 98, 98, 98, 99]) 7) [98] where
  min := minimal_mk (vs := [[], [98], [98, 99], [99]]) (by decide +kernel) (by decide +kernel) (by decide +kernel) (by decide +kernel) (by decide +kernel) (by decide +kernel) (by decide +kernel) (by decide +kernel) (by decide +kernel)
  step q c h := step_mk q c h
  other := by decide
  start := by decide +kernel
  small := by decide +kernel
  next := by decide +kernel
  le := by decide +kernel
  alive := by decide +kernel
  word := by unfold IsWord; decide
  depth := by decide

theorem abbcB_known10 : Known abbcBTab 5 (fun q => [[], [97], [97, 98], [97, 98, 98], [98]].getD q []) (fun q => [[98], [98, 98, 99], [98, 99], [99], []].getD q []) [97, 98, 98, 98, 99] 0 10
    (explore abbcBTab 10 (0 :: 259 :: [97, 98, 98, 98, 99]) 7) [98] where
  min := minimal_mk (vs := [[], [98], [98, 99], [99]]) (by decide +kernel) (by decide +kernel) (by decide +kernel) (by decide +kernel) (by decide +kernel) (by decide +kernel) (by decide +kernel) (by decide +kernel) (by decide +kernel)
  step q c h := step_mk q c h
  other := by decide
  start := by decide +kernel
  small := by decide +kernel
  next := by decide +kernel
  le := by decide +kernel
  alive := by decide +kernel
  word := by unfold IsWord; decide
  depth := by decide

/-- The regexp `abbc|b`. -/
def abbcBExpr : Expr := .alt (.lit [97, 98, 98, 99]) (.lit [98])

theorem abbcB_lang (w : List Nat) : w ∈ abbcBExpr.den ↔ abbcBTab.acc 0 w = true := by
  unfold abbcBTab
  rw [acc_finite (n := 5) (W := [[[97, 98, 98, 99], [98]], [[98, 98, 99]], [[98, 99]], [[99]], [[]]]) (by decide +kernel) (by decide +kernel) (by decide +kernel) (by decide +kernel) w 0 (by decide +kernel)]
  show ((w = [97, 98, 98, 99]) ∨ w = [98]) ↔ _
  simp only [List.getD_cons_zero, List.mem_cons, List.not_mem_nil, or_false]

theorem abbcB_built : ∃ f, build abbcBExpr = some f ∧ f.Good ∧ f.size ≤ 17 ∧ f.Lang = abbcBExpr.den ∧ ∀ w, w ∈ f.Lang ↔ abbcBTab.acc 0 w = true := by
  have ok : abbcBExpr.Ok := ⟨show IsWord _ by unfold IsWord; decide, show IsWord _ by unfold IsWord; decide⟩
  obtain ⟨f, hf, hg, hs, hl⟩ := build_small ok (by decide +kernel)
  exact ⟨f, hf, hg, hs, hl, fun w => by rw [hl]; exact abbcB_lang w⟩

/-! ### `a$|b` -/

/-- The table of `a$|b`. -/
def aEndBTab : Tab := mk [2] [(0, 97, 1), (0, 98, 2), (1, 259, 2)]

theorem aEndB_known1 : Known aEndBTab 3 (fun q => [[], [97], [98]].getD q []) (fun q => [[98], [259], []].getD q []) [97, 98, 259] 0 1
    (explore aEndBTab 1 (0 :: 259 :: [97, 98, 259]) 5) [98] where
  min := minimal_mk (vs := [[], [98], [259]]) (by decide +kernel) (by decide +kernel) (by decide +kernel) (by decide +kernel) (by decide +kernel) (by decide +kernel) (by decide +kernel) (by decide +kernel) (by decide +kernel)
  step q c h := step_mk q c h
  other := by decide
  start := by decide +kernel
  small := by decide +kernel
  next := by decide +kernel
  le := by decide +kernel
  alive := by decide +kernel
  word := by unfold IsWord; decide
  depth := by decide

theorem aEndB_known10 : Known aEndBTab 3 (fun q => [[], [97], [98]].getD q []) (fun q => [[98], [259], []].getD q []) [97, 98, 259] 0 10
    (explore aEndBTab 10 (0 :: 259 :: [97, 98, 259]) 5) [98] where
  min := minimal_mk (vs := [[], [98], [259]]) (by decide +kernel) (by decide +kernel) (by decide +kernel) (by decide +kernel) (by decide +kernel) (by decide +kernel) (by decide +kernel) (by decide +kernel) (by decide +kernel)
  step q c h := step_mk q c h
  other := by decide
  start := by decide +kernel
  small := by decide +kernel
  next := by decide +kernel
  le := by decide +kernel
  alive := by decide +kernel
  word := by unfold IsWord; decide
  depth := by decide

/-- The regexp `a$|b`. -/
def aEndBExpr : Expr := .alt (.lit [97, 259]) (.lit [98])

theorem aEndB_lang (w : List Nat) : w ∈ aEndBExpr.den ↔ aEndBTab.acc 0 w = true := by
  unfold aEndBTab
  rw [acc_finite (n := 3) (W := [[[97, 259], [98]], [[259]], [[]]]) (by decide +kernel) (by decide +kernel) (by decide +kernel) (by decide +kernel) w 0 (by decide +kernel)]
  show ((w = [97, 259]) ∨ w = [98]) ↔ _
  simp only [List.getD_cons_zero, List.mem_cons, List.not_mem_nil, or_false]

theorem aEndB_built : ∃ f, build aEndBExpr = some f ∧ f.Good ∧ f.size ≤ 17 ∧ f.Lang = aEndBExpr.den ∧ ∀ w, w ∈ f.Lang ↔ aEndBTab.acc 0 w = true := by
  have ok : aEndBExpr.Ok := ⟨show IsWord _ by unfold IsWord; decide, show IsWord _ by unfold IsWord; decide⟩
  obtain ⟨f, hf, hg, hs, hl⟩ := build_small ok (by decide +kernel)
  exact ⟨f, hf, hg, hs, hl, fun w => by rw [hl]; exact aEndB_lang w⟩


/-! ### `(xyz)*(d|y)` -/

/-- The table of `(xyz)*(d|y)`. -/
def xyzTab : Tab := mk [3] [(0, 120, 1), (0, 100, 3), (0, 121, 3), (1, 121, 2), (2, 122, 0)]

theorem xyz_known1 : Known xyzTab 4 (fun q => [[], [120], [120, 121], [100]].getD q []) (fun q => [[100], [121, 122, 100], [122, 100], []].getD q []) [120, 100, 121, 121, 122] 0 1
    (explore xyzTab 1 (0 :: 259 :: [120, 100, 121, 121, 122]) 7) [100] where
  min := minimal_mk (vs := [[], [100], [122, 100], [121, 122, 100]]) (by decide +kernel) (by decide +kernel) (by decide +kernel) (by decide +kernel) (by decide +kernel)
    (by decide +kernel) (by decide +kernel) (by decide +kernel) (by decide +kernel)
  step q c h := step_mk q c h
  other := by decide
  start := by decide +kernel
  small := by decide +kernel
  next := by decide +kernel
  le := by decide +kernel
  alive := by decide +kernel
  word := by unfold IsWord; decide
  depth := by decide

theorem xyz_known10 : Known xyzTab 4 (fun q => [[], [120], [120, 121], [100]].getD q []) (fun q => [[100], [121, 122, 100], [122, 100], []].getD q []) [120, 100, 121, 121, 122] 0 10
    (explore xyzTab 10 (0 :: 259 :: [120, 100, 121, 121, 122]) 7) [100] where
  min := minimal_mk (vs := [[], [100], [122, 100], [121, 122, 100]]) (by decide +kernel) (by decide +kernel) (by decide +kernel) (by decide +kernel) (by decide +kernel)
    (by decide +kernel) (by decide +kernel) (by decide +kernel) (by decide +kernel)
  step q c h := step_mk q c h
  other := by decide
  start := by decide +kernel
  small := by decide +kernel
  next := by decide +kernel
  le := by decide +kernel
  alive := by decide +kernel
  word := by unfold IsWord; decide
  depth := by decide

/-- The regexp `(xyz)*(d|y)`. -/
def xyzExpr : Expr := .cat (.star (.lit [120, 121, 122])) (.alt (.lit [100]) (.lit [121]))

theorem xyz_tail (w : List Nat) : xyzTab.acc 3 w = true ↔ w = [] := by
  match w with
  | [] => exact ⟨fun _ => rfl, fun _ => rfl⟩
  | c :: w =>
    rw [Tab.acc_cons]
    have : xyzTab.step 3 c = none := by simp [xyzTab, mk]
    rw [this]; simp

theorem xyz_lang (w : List Nat) : w ∈ xyzExpr.den ↔ xyzTab.acc 0 w = true := by
  have one : ∀ q c p, (∀ c', xyzTab.step q c' = if c' = c then some p else none) → ∀ w, xyzTab.acc q w = true → xyzTab.fin q = true ∨ ∃ v, w = c :: v ∧ xyzTab.acc p v = true := by
    intro q c p h w hw
    match w with
    | [] => exact Or.inl hw
    | c' :: w =>
      rw [Tab.acc_cons, h c'] at hw
      by_cases e : c' = c
      · subst e
        rw [if_pos rfl] at hw
        exact Or.inr ⟨w, rfl, hw⟩
      · rw [if_neg e] at hw; cases hw
  constructor
  · rintro ⟨a, ha, b, hb, rfl⟩
    show xyzTab.acc 0 (a ++ b) = true
    obtain ⟨l, rfl, hl⟩ := Language.mem_kstar.1 ha
    clear ha
    induction l with
    | nil =>
      rcases hb with hb | hb <;> cases hb <;> decide
    | cons x l ih =>
      have hx : x = [120, 121, 122] := hl x List.mem_cons_self
      subst hx
      rw [List.flatten_cons, List.append_assoc, Tab.acc_append (p := 0) (by decide +kernel)]
      exact ih fun y hy => hl y (List.mem_cons_of_mem _ hy)
  · have key : ∀ n (w : List Nat), w.length ≤ n → xyzTab.acc 0 w = true → w ∈ xyzExpr.den := by
      intro n
      induction n with
      | zero =>
        intro w hw h
        have : w = [] := List.length_eq_zero_iff.1 (by omega)
        subst this
        exact absurd h (by decide)
      | succ n ih =>
        intro w hw h
        match w with
        | [] => exact absurd h (by decide)
        | c :: w =>
          rw [Tab.acc_cons] at h
          by_cases h1 : c = 120
          · subst h1
            have h : xyzTab.acc 1 w = true := h
            rcases one 1 121 2 (fun c' => by
              by_cases e : c' = 121
              · subst e; decide
              · rw [if_neg e]; show (List.find? _ _).map _ = none; simp [Ne.symm e]) w h with h | ⟨v, rfl, h⟩
            · exact absurd h (by decide)
            · rcases one 2 122 0 (fun c' => by
                by_cases e : c' = 122
                · subst e; decide
                · rw [if_neg e]; show (List.find? _ _).map _ = none; simp [Ne.symm e]) v h with h | ⟨u, rfl, h⟩
              · exact absurd h (by decide)
              · obtain ⟨a, ha, b, hb, e⟩ := ih u (by simp at hw; omega) h
                refine ⟨[120, 121, 122] ++ a, ?_, b, hb, ?_⟩
                · show _ ∈ KStar.kstar (Spec.single [120, 121, 122])
                  rw [← Language.one_add_self_mul_kstar_eq_kstar]
                  exact Or.inr ⟨_, rfl, a, ha, rfl⟩
                · have e' : a ++ b = u := e
                  show ([120, 121, 122] ++ a) ++ b = _
                  rw [List.append_assoc, e']; rfl
          · by_cases h2 : c = 100
            · subst h2
              have h : xyzTab.acc 3 w = true := h
              rw [xyz_tail] at h
              subst h
              exact ⟨[], Language.nil_mem_kstar _, [100], Or.inl rfl, rfl⟩
            · by_cases h3 : c = 121
              · subst h3
                have h : xyzTab.acc 3 w = true := h
                rw [xyz_tail] at h
                subst h
                exact ⟨[], Language.nil_mem_kstar _, [121], Or.inr rfl, rfl⟩
              · exfalso
                have : xyzTab.step 0 c = none := by
                  show (List.find? _ _).map _ = none
                  simp [Ne.symm h1, Ne.symm h2, Ne.symm h3]
                rw [this] at h; cases h
    exact key w.length w le_rfl

theorem xyz_built : ∃ f, build xyzExpr = some f ∧ f.Good ∧ f.size ≤ 17 ∧ f.Lang = xyzExpr.den ∧ ∀ w, w ∈ f.Lang ↔ xyzTab.acc 0 w = true := by
  have ok : xyzExpr.Ok := ⟨show IsWord _ by unfold IsWord; decide, ⟨show IsWord _ by unfold IsWord; decide, show IsWord _ by unfold IsWord; decide⟩, rfl⟩
  obtain ⟨f, hf, hg, hs, hl⟩ := build_small ok (by decide +kernel)
  exact ⟨f, hf, hg, hs, hl, fun w => by rw [hl]; exact xyz_lang w⟩

/-! ### What the counters do -/

/-- `C57_full` applies to `abc|b`: in `abdabc` its counter finds two matches. -/
example (P : Policy) (hP : Typedef P) (base : Nat) (hal : base % 8 = 0) (hb : base ≤ 2 ^ 63) : ∃ f g, build abcBExpr = some f ∧
    makeGreedyCounter false f = some g ∧
    ((HalfFinal.scn P (ofHalfFinal P base g)).after (HalfFinal.scn P (ofHalfFinal P base g)).initial [97, 98, 100, 97, 98, 99, EndMark]).result 0 = 2 := by
  obtain ⟨f, hf, hg, hs, hl, hL⟩ := abcB_built
  obtain ⟨hset, g, hgr, -⟩ := counter_of_table abcB_known10 hg hs hL false 10 rfl
  refine ⟨f, g, hf, hgr, ?_⟩
  have hmem : ∀ w, w ∈ f.Lang ↔ w = [97, 98, 99] ∨ w = [98] := fun w => by rw [hl]; exact Iff.rfl
  have hv : ∀ x, Viable f.Lang x → x = [] ∨ x = [97] ∨ x = [97, 98] ∨ x = [97, 98, 99] ∨ x = [98] := by
    rintro x ⟨v, hv⟩
    have hp : x ∈ [97, 98, 99].inits ∨ x ∈ [98].inits := by
      rcases (hmem _).1 hv with h | h
      · exact Or.inl ((List.mem_inits _ _).2 ⟨v, h⟩)
      · exact Or.inr ((List.mem_inits _ _).2 ⟨v, h⟩)
    simp [List.inits] at hp
    tauto
  have hno : ∀ x, x = [] ∨ x = [97] ∨ x = [97, 98] → NoMatch f.Lang x := by
    intro x hx u hu hp hm
    rcases (hmem u).1 hm with rfl | rfl
    · have := hp.length_le
      rcases hx with rfl | rfl | rfl <;> simp at this
    · rcases hx with rfl | rfl | rfl <;> simp at hp
  have hd : WithinDepth f.Lang 10 := by
    intro x j hx hj
    have hlen : x.length ≤ 3 := by rcases hv x hx with h | h | h | h | h <;> subst h <;> simp
    rw [laterMatches_iff] at hj
    have h1 := later_eq (L := f.Lang) (x := x)
    have h2 := greedy_unique (scanTab_spec hL x.length x le_rfl)
    have h3 : scanTab abcBTab x.length x ≤ 3 := by
      rcases hv x hx with h | h | h | h | h <;> subst h <;> decide +kernel
    omega
  have hn : NoSwallowing f.Lang := by
    intro x c j hx hh _
    refine absurd (hno x ?_) hh
    rcases (hmem _).1 hx with e | e
    · have : x ++ [c] = [97, 98] ++ [99] := e
      exact Or.inr (Or.inr (List.append_inj' this rfl).1)
    · have : x ++ [c] = [] ++ [98] := e
      exact Or.inl (List.append_inj' this rfl).1
  have hr : NoReturn f.Lang := by
    intro x hne hx
    refine ⟨[98], ?_⟩
    rw [hmem, hmem]
    rcases hv x hx with h | h | h | h | h <;> subst h <;> simp at hne ⊢
  exact (C57_full hP hg hgr hset (by decide) (by decide) (by rw [hL]; decide) ⟨[98], by rw [hL]; decide, by decide⟩ (Or.inr ⟨hd, hn, hr⟩) hal hb
    (w := [97, 98, 100, 97, 98, 99]) (by unfold IsWord; decide) (by decide)
    (scanTab_spec hL 6 _ (by decide)) (by decide +kernel)).1.trans (by decide +kernel)

/-- The counters of `a|abc|b` count `abc` twice: `NoSwallowing` is needed. -/
theorem C57_overcounts : ∃ f, build aAbcBExpr = some f ∧ GreedyMatches f.Lang [97, 98, 99] 1 ∧ ∀ sim, ∃ g, makeGreedyCounter sim f = some g ∧
    ∀ (P : Policy) (base : Nat), Typedef P → base % 8 = 0 → base ≤ 2 ^ 63 →
      ((HalfFinal.scn P (ofHalfFinal P base g)).after (HalfFinal.scn P (ofHalfFinal P base g)).initial [97, 98, 99, EndMark]).result 0 = 2 := by
  obtain ⟨f, hf, hg, hs, -, hL⟩ := aAbcB_built
  refine ⟨f, hf, scanTab_spec hL 3 _ le_rfl, fun sim => ?_⟩
  have hw : IsWord [97, 98, 99, EndMark] := by unfold IsWord; decide
  cases sim with
  | true =>
    obtain ⟨-, g, hgr, h⟩ := counter_of_table aAbcB_known1 hg hs hL true 10 rfl
    exact ⟨g, hgr, fun P base h1 h2 h3 => (h P base h1 h2 h3 _ hw (by decide +kernel)).1.trans (by decide +kernel)⟩
  | false =>
    obtain ⟨-, g, hgr, h⟩ := counter_of_table aAbcB_known10 hg hs hL false 10 rfl
    exact ⟨g, hgr, fun P base h1 h2 h3 => (h P base h1 h2 h3 _ hw (by decide +kernel)).1.trans (by decide +kernel)⟩

/-- The counters of `(xyz)*(d|y)` lose one of the two matches in `xyzqy`: `NoReturn` is needed. -/
theorem C57_undercounts : ∃ f, build xyzExpr = some f ∧ GreedyMatches f.Lang [120, 121, 122, 113, 121] 2 ∧ ∀ sim, ∃ g, makeGreedyCounter sim f = some g ∧
    ∀ (P : Policy) (base : Nat), Typedef P → base % 8 = 0 → base ≤ 2 ^ 63 →
      ((HalfFinal.scn P (ofHalfFinal P base g)).after (HalfFinal.scn P (ofHalfFinal P base g)).initial [120, 121, 122, 113, 121, EndMark]).result 0 = 1 := by
  obtain ⟨f, hf, hg, hs, -, hL⟩ := xyz_built
  refine ⟨f, hf, scanTab_spec hL 5 _ le_rfl, fun sim => ?_⟩
  have hw : IsWord [120, 121, 122, 113, 121, EndMark] := by unfold IsWord; decide
  cases sim with
  | true =>
    obtain ⟨-, g, hgr, h⟩ := counter_of_table xyz_known1 hg hs hL true 10 rfl
    exact ⟨g, hgr, fun P base h1 h2 h3 => (h P base h1 h2 h3 _ hw (by decide +kernel)).1.trans (by decide +kernel)⟩
  | false =>
    obtain ⟨-, g, hgr, h⟩ := counter_of_table xyz_known10 hg hs hL false 10 rfl
    exact ⟨g, hgr, fun P base h1 h2 h3 => (h P base h1 h2 h3 _ hw (by decide +kernel)).1.trans (by decide +kernel)⟩

/-- The counters never count a match that ends with the end mark: `a$|b` is not found in `a`. -/
theorem C57_end_mark_ignored : ∃ f, build aEndBExpr = some f ∧ GreedyMatches f.Lang [97, EndMark] 1 ∧ ∀ sim, ∃ g, makeGreedyCounter sim f = some g ∧
    ∀ (P : Policy) (base : Nat), Typedef P → base % 8 = 0 → base ≤ 2 ^ 63 →
      ((HalfFinal.scn P (ofHalfFinal P base g)).after (HalfFinal.scn P (ofHalfFinal P base g)).initial [97, EndMark]).result 0 = 0 := by
  obtain ⟨f, hf, hg, hs, -, hL⟩ := aEndB_built
  refine ⟨f, hf, scanTab_spec hL 2 _ le_rfl, fun sim => ?_⟩
  have hw : IsWord [97, EndMark] := by unfold IsWord; decide
  cases sim with
  | true =>
    obtain ⟨-, g, hgr, h⟩ := counter_of_table aEndB_known1 hg hs hL true 10 rfl
    exact ⟨g, hgr, fun P base h1 h2 h3 => (h P base h1 h2 h3 _ hw (by decide +kernel)).1.trans (by decide +kernel)⟩
  | false =>
    obtain ⟨-, g, hgr, h⟩ := counter_of_table aEndB_known10 hg hs hL false 10 rfl
    exact ⟨g, hgr, fun P base h1 h2 h3 => (h P base h1 h2 h3 _ hw (by decide +kernel)).1.trans (by decide +kernel)⟩

/-- By default the counter of `abbc|b` loses one of the two matches in `abbq`: `WithinDepth f.Lang 1` is needed. -/
theorem C57_default_undercounts : ∃ f g, build abbcBExpr = some f ∧ GreedyMatches f.Lang [97, 98, 98, 113] 2 ∧ makeGreedyCounter true f = some g ∧
    ∀ (P : Policy) (base : Nat), Typedef P → base % 8 = 0 → base ≤ 2 ^ 63 →
      ((HalfFinal.scn P (ofHalfFinal P base g)).after (HalfFinal.scn P (ofHalfFinal P base g)).initial [97, 98, 98, 113, EndMark]).result 0 = 1 := by
  obtain ⟨f, hf, hg, hs, -, hL⟩ := abbcB_built
  have hw : IsWord [97, 98, 98, 113, EndMark] := by unfold IsWord; decide
  obtain ⟨-, g, hgr, h⟩ := counter_of_table abbcB_known1 hg hs hL true 10 rfl
  exact ⟨f, g, hf, scanTab_spec hL 4 _ le_rfl, hgr, fun P base h1 h2 h3 => (h P base h1 h2 h3 _ hw (by decide +kernel)).1.trans (by decide +kernel)⟩

/-- A counter made with `simplify = false` may claim to be dead while it still counts: of `abbc|b` after `abbq`, where two matches are counted at
once; a `b` that follows is counted. -/
theorem C57_dead_lies : ∃ f g, build abbcBExpr = some f ∧ makeGreedyCounter false f = some g ∧
    ∀ (P : Policy) (base : Nat), Typedef P → base % 8 = 0 → base ≤ 2 ^ 63 →
      (HalfFinal.scn P (ofHalfFinal P base g)).dead ((HalfFinal.scn P (ofHalfFinal P base g)).after (HalfFinal.scn P (ofHalfFinal P base g)).initial [97, 98, 98, 113]) = true ∧
      ((HalfFinal.scn P (ofHalfFinal P base g)).after (HalfFinal.scn P (ofHalfFinal P base g)).initial [97, 98, 98, 113]).result 0 = 2 ∧
      ((HalfFinal.scn P (ofHalfFinal P base g)).after (HalfFinal.scn P (ofHalfFinal P base g)).initial [97, 98, 98, 113, 98]).result 0 = 3 := by
  obtain ⟨f, hf, hg, hs, -, hL⟩ := abbcB_built
  obtain ⟨-, g, hgr, h⟩ := counter_of_table abbcB_known10 hg hs hL false 10 rfl
  refine ⟨f, g, hf, hgr, fun P base h1 h2 h3 => ?_⟩
  obtain ⟨r1, r2⟩ := h P base h1 h2 h3 [97, 98, 98, 113] (by unfold IsWord; decide) (by decide +kernel)
  obtain ⟨r3, -⟩ := h P base h1 h2 h3 [97, 98, 98, 113, 98] (by unfold IsWord; decide) (by decide +kernel)
  exact ⟨r2.2 ⟨rfl, by decide +kernel⟩, r1.trans (by decide +kernel), r3.trans (by decide +kernel)⟩

end Pire.Props
