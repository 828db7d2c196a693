import Verif.Proofs.CountSmall
import Verif.Props.Algebra

/-!
# Small calls of the constructor of `CountingScanner`
-/

namespace Pire

open Spec

namespace Fsm

theorem union_size_le (f rhs : Fsm) : (f.union rhs).size ≤ f.size + rhs.size + 1 := by
  have gen : ∀ (l : List Nat) (a b : Nat) (h : Fsm), (l.foldl (fun h p => (h.connect h.initial (p + b) Epsilon).disconnect a (p + b) Epsilon) h).size = h.size := by
    intro l a b
    induction l with
    | nil => intro h; rfl
    | cons x l ih => intro h; rw [List.foldl_cons, ih]; rfl
  unfold Fsm.union
  cases a1 : f.isAlt <;> cases a2 : rhs.isAlt <;>
    simp only [Bool.not_true, Bool.not_false, Bool.and_self, Bool.false_and, Bool.and_false, Bool.false_eq_true, if_false, if_true, gen] <;>
    simp [connect, resize]

end Fsm

namespace Count

open Fsm Counting

/-- The automaton of `aa…a`, by `Append`. -/
def chain : Nat → Fsm
  | 0 => Fsm.init
  | n + 1 => (chain n).appendChar 97

theorem chain_spec (n : Nat) : (chain n).WF ∧ (chain n).Raw ∧ (chain n).size = n + 1 ∧ (chain n).initial = 0 ∧ (chain n).finals = {n} ∧
    (chain n).isAlt = false ∧ (chain n).determined = false ∧ ∀ q c p, (chain n).Edge q c p ↔ q < n ∧ p = q + 1 ∧ c = 97 := by
  induction n with
  | zero =>
    refine ⟨WF.init, init_raw, rfl, rfl, rfl, rfl, rfl, fun q c p => ?_⟩
    constructor
    · intro e; exact absurd e (init_noEdge _ _ _)
    · rintro ⟨h, _⟩; omega
  | succ n ih =>
    obtain ⟨h1, h2, h3, h4, h5, h6, h7, h8⟩ := ih
    refine ⟨h1.appendChar (by decide), h2.appendChar _, by rw [chain, appendChar_size, h3], by rw [chain, appendChar_initial, h4], by rw [chain, appendChar_finals, h3],
      appendChar_isAlt _ _, rfl, fun q c p => ?_⟩
    rw [chain, appendChar_edge h1, h8, h5, h3, key_raw h2, Finset.mem_singleton]
    constructor
    · rintro (⟨k1, k2, k3⟩ | ⟨k1, k2, k3⟩) <;> exact ⟨by omega, by omega, k3⟩
    · rintro ⟨k1, k2, k3⟩
      by_cases hq : q < n
      · exact .inl ⟨hq, k2, k3⟩
      · exact .inr ⟨by omega, by omega, k3⟩

/-- The same with another set of final states. -/
structure Chain (n : Nat) (S : Finset Nat) (f : Fsm) : Prop where
  good : f.Good
  nd : f.determined = false
  size : f.size = n + 1
  initial : f.initial = 0
  finals : f.finals = S
  edge : ∀ q c p, f.Edge q c p ↔ q < n ∧ p = q + 1 ∧ c = 97

theorem Chain.run {n : Nat} {S : Finset Nat} {f : Fsm} (h : Chain n S f) (w : List Nat) (p : Nat) :
    Run f.Edge f.initial w p ↔ w = List.replicate p 97 ∧ p ≤ n := by
  rw [h.initial]
  have noeps : ∀ q p, ¬ f.Edge q 257 p := by
    intro q p e
    have := ((h.edge _ _ _).1 e).2.2
    omega
  constructor
  · intro hr
    have gen : ∀ q w p, Run f.Edge q w p → q ≤ n → q ≤ p ∧ w = List.replicate (p - q) 97 ∧ p ≤ n := by
      intro q w p hr
      induction hr with
      | refl q => intro hq; exact ⟨Nat.le_refl _, by simp, hq⟩
      | eps e _ _ => exact absurd e (noeps _ _)
      | @step q c q' w p hc e _ ih =>
        intro hq
        obtain ⟨e1, e2, e3⟩ := (h.edge _ _ _).1 e
        obtain ⟨i1, i2, i3⟩ := ih (by omega)
        refine ⟨by omega, ?_, i3⟩
        rw [i2, e3, e2, show p - q = (p - (q + 1)) + 1 by omega, List.replicate_succ]
    obtain ⟨_, h2, h3⟩ := gen 0 w p hr (Nat.zero_le _)
    exact ⟨h2, h3⟩
  · rintro ⟨rfl, hp⟩
    induction p with
    | zero => exact .refl _
    | succ p ih =>
      rw [List.replicate_succ']
      exact (ih (by omega)).snoc (by decide) ((h.edge _ _ _).2 ⟨by omega, rfl, rfl⟩)

theorem Chain.mem {n : Nat} {S : Finset Nat} {f : Fsm} (h : Chain n S f) (w : List Nat) : w ∈ f.Lang ↔ ∃ k ∈ S, k ≤ n ∧ w = List.replicate k 97 := by
  constructor
  · rintro ⟨p, hp, hr⟩
    rw [h.finals] at hp
    obtain ⟨h1, h2⟩ := (h.run _ _).1 hr
    exact ⟨p, hp, h2, h1⟩
  · rintro ⟨k, hk, hn, rfl⟩
    exact ⟨k, by rw [h.finals]; exact hk, (h.run _ _).2 ⟨rfl, hn⟩⟩

/-- Words with the letter `a`. -/
def hasA (b : Bool) : DFA Nat Bool where
  step s c := s || c == 97
  start := false
  accept := {b}

/-- Words that are not empty. -/
def notNil (b : Bool) : DFA Nat Bool where
  step _ _ := true
  start := false
  accept := {b}

theorem hasA_mem (b : Bool) (w : List Nat) : w ∈ (hasA b).accepts ↔ decide (97 ∈ w) = b := by
  have gen : ∀ (w : List Nat) s, w.foldl (fun (s : Bool) c => s || c == 97) s = (s || decide (97 ∈ w)) := by
    intro w
    induction w with
    | nil => intro s; simp
    | cons c w ih =>
      intro s
      rw [List.foldl_cons, ih]
      by_cases h : c = 97
      · subst h; simp
      · have h' : ¬ 97 = c := fun e => h e.symm
        have h2 : (c == 97) = false := by simpa using h
        simp [h2, h']
  have h := gen w false
  rw [Bool.false_or] at h
  rw [← h]
  exact Set.mem_singleton_iff

theorem notNil_mem (b : Bool) (w : List Nat) : w ∈ (notNil b).accepts ↔ decide (w ≠ []) = b := by
  have gen : ∀ (w : List Nat) s, w.foldl (fun (_ : Bool) _ => true) s = (s || decide (w ≠ [])) := by
    intro w
    induction w with
    | nil => intro s; simp
    | cons c w ih =>
      intro s
      rw [List.foldl_cons, ih]
      simp
  have h := gen w false
  rw [Bool.false_or] at h
  rw [← h]
  exact Set.mem_singleton_iff

theorem chain_sep {n : Nat} {S : Finset Nat} {re : Fsm} (h : Chain n S re) (h0 : 0 ∉ S) (h1 : 1 ∈ S) (hn : 1 ≤ n) (hn2 : n ≤ 14) :
    ∃ d : Fsm, sepRe re Fsm.init = some (d.complementCore.concat re) ∧ d.Det ∧ (∀ w, IsWord w → (w ∈ d.Lang ↔ w ≠ [])) ∧
      (∀ k < d.size, ∀ k' < d.size, d.LangFrom k = d.LangFrom k' → k = k') ∧ (∀ c < 9, d.complementCore.Equi c 0) ∧ d.complementCore.Good := by
  have hs := h.good.surround
  have hsz : re.surround.size ≤ 17 := by
    have : re.surround.size = re.size + 1 + 1 := by
      unfold Fsm.surround
      rw [appendAnything_size, prependAnything_size]
    rw [this, h.size]; omega
  have hnd : re.surround.determined = false := rfl
  have hsurr : ∀ w, IsWord w → (w ∈ re.surround.Lang ↔ 97 ∈ w) := by
    intro w hw
    rw [lang_surround h.good.wf, mem_surround hw]
    constructor
    · rintro ⟨x, hx, hr⟩
      obtain ⟨k, hk, -, rfl⟩ := (h.mem _).1 hr
      cases k with
      | zero => exact absurd hk h0
      | succ k => exact hx.subset (by rw [List.replicate_succ]; exact List.mem_cons_self)
    · intro hm
      obtain ⟨u, v, rfl⟩ := List.append_of_mem hm
      exact ⟨[97], ⟨u, v, by simp⟩, (h.mem _).2 ⟨1, h1, hn, rfl⟩⟩
  obtain ⟨x, hx⟩ := Props.C07_small_never_throws hs hsz
  obtain ⟨x1, x2, -⟩ := complement_spec hs hx
  have hxnd : x.determined = false := by
    obtain ⟨d, -, -, -, -, rfl⟩ := comp_shape hs hnd hx
    exact (complementCore_fields d).2.2.2.2
  have hxs : x.size ≤ 3 := comp_size hs hnd hx (hasA true) (by
    intro w hw
    rw [hsurr w hw, hasA_mem]; simp)
  obtain ⟨r, hr⟩ := Props.C07_small_never_throws x1 (by omega)
  have hxl : ∀ w, IsWord w → (w ∈ x.Lang ↔ 97 ∉ w) := by
    intro w hw
    rw [x2]
    constructor
    · rintro ⟨_, hn⟩ hm; exact hn ((hsurr w hw).2 hm)
    · intro hn; exact ⟨hw, fun hm => hn ((hsurr w hw).1 hm)⟩
  have hrs : r.size ≤ 3 := comp_size x1 hxnd hr (hasA false) (by
    intro w hw
    rw [hxl w hw, hasA_mem]; simp)
  obtain ⟨r1, r2, -⟩ := complement_spec x1 hr
  obtain ⟨i, hi⟩ := Props.C07_small_never_throws Good.init (show Fsm.init.size ≤ 17 by decide)
  obtain ⟨i1, i2, -⟩ := complement_spec Good.init hi
  have his : i.size ≤ 3 := comp_size Good.init rfl hi (notNil false) (by
    intro w hw
    rw [lang_init, notNil_mem]
    have : w ∈ (single [] : Language Nat) ↔ w = [] := Iff.rfl
    rw [this]; simp)
  have us := union_size_le i r
  have ug := i1.union r1
  obtain ⟨y, hy⟩ := Props.C07_small_never_throws ug (by omega)
  have und : (i.union r).determined = false := union_determined _ _
  have ul : ∀ w, IsWord w → (w ∈ (i.union r).Lang ↔ w ≠ []) := by
    intro w hw
    have hu := (union_shape i1.wf i1.coh i1.alt r1.wf r1.coh r1.alt).lang
    rw [hu]
    have : w ∈ i.Lang + r.Lang ↔ w ∈ i.Lang ∨ w ∈ r.Lang := Iff.rfl
    rw [this, i2, r2]
    constructor
    · rintro (⟨_, h⟩ | ⟨_, h⟩) rfl
      · exact h (by rw [lang_init]; rfl)
      · exact h ((hxl [] hw).2 (by simp))
    · intro hne
      exact .inl ⟨hw, fun h => hne (by rw [lang_init] at h; exact h)⟩
  have hl9 : ∀ c < 9, IsLetter c := fun c hc => ⟨by omega, by omega⟩
  have he : ∀ c < 9, y.Equi c 0 := by
    intro c hc
    refine comp_equi ug und hy (hl9 c hc) (hl9 0 (by omega)) ?_
    intro u v
    have hiff : ∀ c < 9, (u ++ c :: v ∈ (i.union r).Lang ↔ IsWord u ∧ IsWord v) := by
      intro c hc
      constructor
      · rintro ⟨p, _, hr⟩
        have := ug.wf.run_word hr
        exact ⟨fun x hx => this x (by simp [hx]), fun x hx => this x (by simp [hx])⟩
      · rintro ⟨hu, hv⟩
        refine (ul _ ?_).2 (by simp)
        intro x hx
        rcases List.mem_append.1 hx with hx | hx
        · exact hu x hx
        · rcases List.mem_cons.1 hx with rfl | hx
          · exact hl9 _ hc
          · exact hv x hx
    rw [hiff c hc, hiff 0 (by omega)]
  have hyg := (complement_spec ug hy).1
  obtain ⟨d, d1, d2, d3, d4, rfl⟩ := comp_shape ug und hy
  refine ⟨d, ?_, d1, by rw [d2]; exact ul, d4, he, hyg⟩
  unfold sepRe
  rw [hx]
  simp only [Option.bind_eq_bind, Option.bind_some]
  unfold Fsm.inter
  simp only [Option.bind_eq_bind, hr, Option.bind_some, hi, hy]
  rfl

/-- The constructor succeeds for chains. -/
theorem chain_ok {n : Nat} {S : Finset Nat} {re : Fsm} (h : Chain n S re) (h0 : 0 ∉ S) (h1 : 1 ∈ S) (hn : 1 ≤ n) (hn2 : n ≤ 14)
    (ht : Unmarked re) (ht2 : Unmarked Fsm.init) :
    CtorOk re Fsm.init ∧ ∀ g, countFsm re Fsm.init = some g → g.letters.size ≤ 256 ∧ g.size ≤ 194481 := by
  classical
  obtain ⟨d, hd, d1, d2, d3, d4, d5⟩ := chain_sep h h0 h1 hn hn2
  have he : [] ∉ re.Lang := by
    intro hm
    obtain ⟨k, hk, -, e⟩ := (h.mem _).1 hm
    cases k with
    | zero => exact h0 hk
    | succ k => rw [List.replicate_succ] at e; cases e
  obtain ⟨f1, f2, f3⟩ := sepRe_spec h.good Good.init he hd
  obtain ⟨s1, s2, s3, s4, s5, s6⟩ := concat_spec d5.wf d5.coh h.good.wf h.good.coh
  obtain ⟨c1, c2, c3, -, -⟩ := complementCore_fields d
  have cE := complementCore_edge d1.wf
  -- runs in the first part
  have runY : ∀ q w p, Run d.complementCore.Edge q w p → q < d.size → (p < d.size ∧ Run d.Edge q w p) ∨ (p = d.size ∧ ∃ q', q' ∉ d.finals ∧ q' < d.size ∧ Run d.Edge q w q') := by
    intro q w p hr
    have last : ∀ q w p, Run d.complementCore.Edge q w p → q = d.size → w = [] ∧ p = d.size := by
      intro q w p hr
      induction hr with
      | refl => intro h; exact ⟨rfl, h⟩
      | eps e _ ih =>
        rintro rfl
        rcases (cE _ _ _).1 e with e | ⟨_, _, e, _⟩
        · have := (d1.wf.edge_lt e).1; omega
        · exact ih e
      | step hc e _ ih =>
        rintro rfl
        rcases (cE _ _ _).1 e with e | ⟨_, _, _, e⟩
        · have := (d1.wf.edge_lt e).1; omega
        · exact absurd e hc
    induction hr with
    | refl q => intro hq; exact .inl ⟨hq, .refl _⟩
    | eps e hr ih =>
      intro hq
      rcases (cE _ _ _).1 e with e | ⟨k1, k2, k3, _⟩
      · exact absurd e d1.no_eps
      · obtain ⟨rfl, rfl⟩ := last _ _ _ hr k3
        exact .inr ⟨rfl, _, k2, hq, .refl _⟩
    | step hc e hr ih =>
      intro hq
      rcases (cE _ _ _).1 e with e | ⟨_, _, _, k⟩
      · rcases ih (d1.wf.edge_lt e).2.2 with ⟨k1, k2⟩ | ⟨k1, q', k2, k3, k4⟩
        · exact .inl ⟨k1, .step hc e k2⟩
        · exact .inr ⟨k1, q', k2, k3, .step hc e k4⟩
      · exact absurd k hc
  have hi0 := d1.wf.init_lt
  -- only the empty word leads to the end of the first part
  have onlyNil : ∀ w, Run d.complementCore.Edge d.complementCore.initial w d.size → w = [] := by
    intro w hr
    rw [c2] at hr
    rcases runY _ _ _ hr hi0 with ⟨k, _⟩ | ⟨_, q', k1, _, k3⟩
    · omega
    · by_contra hne
      have hw := d1.wf.run_word k3
      obtain ⟨q2, k4, k5⟩ := (d2 w hw).2 hne
      rw [d1.run_unique k3 k5] at k1
      exact k1 k4
  have runS : ∀ q w p, Run (d.complementCore.concat re).Edge q w p → d.complementCore.size ≤ q →
      d.complementCore.size ≤ p ∧ Run re.Edge (q - d.complementCore.size) w (p - d.complementCore.size) := by
    intro q w p hr
    have step : ∀ {q c p}, (d.complementCore.concat re).Edge q c p → d.complementCore.size ≤ q →
        d.complementCore.size ≤ p ∧ re.Edge (q - d.complementCore.size) c (p - d.complementCore.size) := by
      intro q c p e hq
      rcases (s5 _ _ _).1 e with e | ⟨_, k, e⟩ | ⟨k, _⟩
      · have := (d5.wf.edge_lt e).1; omega
      · exact ⟨k, e⟩
      · have := d5.wf.fin_lt _ k; omega
    induction hr with
    | refl => intro hq; exact ⟨hq, .refl _⟩
    | eps e _ ih =>
      intro hq
      obtain ⟨k1, k2⟩ := step e hq
      exact ⟨(ih k1).1, .eps k2 (ih k1).2⟩
    | step hc e _ ih =>
      intro hq
      obtain ⟨k1, k2⟩ := step e hq
      exact ⟨(ih k1).1, .step hc k2 (ih k1).2⟩
  have runF : ∀ q w p, Run (d.complementCore.concat re).Edge q w p → q < d.complementCore.size →
      (p < d.complementCore.size ∧ Run d.complementCore.Edge q w p) ∨ (d.complementCore.size ≤ p ∧ ∃ u v, w = u ++ v ∧
        Run d.complementCore.Edge q u d.size ∧ Run re.Edge re.initial v (p - d.complementCore.size)) := by
    intro q w p hr
    have step : ∀ {q c p}, (d.complementCore.concat re).Edge q c p → q < d.complementCore.size →
        (p < d.complementCore.size ∧ d.complementCore.Edge q c p) ∨ (d.complementCore.size ≤ p ∧ q = d.size ∧ re.Edge re.initial c (p - d.complementCore.size)) := by
      intro q c p e hq
      rcases (s5 _ _ _).1 e with e | ⟨k, _⟩ | ⟨k, k2, e⟩
      · exact .inl ⟨(d5.wf.edge_lt e).2.2, e⟩
      · omega
      · rw [c3, Finset.mem_singleton] at k
        exact .inr ⟨k2, k, e⟩
    induction hr with
    | refl => intro hq; exact .inl ⟨hq, .refl _⟩
    | eps e hr ih =>
      intro hq
      rcases step e hq with ⟨k1, k2⟩ | ⟨k1, k2, k3⟩
      · rcases ih k1 with ⟨k3, k4⟩ | ⟨k3, u, v, rfl, k4, k5⟩
        · exact .inl ⟨k3, .eps k2 k4⟩
        · exact .inr ⟨k3, u, v, rfl, .eps k2 k4, k5⟩
      · obtain ⟨k4, k5⟩ := runS _ _ _ hr k1
        exact .inr ⟨k4, [], _, rfl, by rw [k2]; exact .refl _, .eps k3 k5⟩
    | step hc e hr ih =>
      intro hq
      rcases step e hq with ⟨k1, k2⟩ | ⟨k1, k2, k3⟩
      · rcases ih k1 with ⟨k3, k4⟩ | ⟨k3, u, v, rfl, k4, k5⟩
        · exact .inl ⟨k3, .step hc k2 k4⟩
        · exact .inr ⟨k3, _ :: u, v, rfl, .step hc k2 k4, k5⟩
      · obtain ⟨k4, k5⟩ := runS _ _ _ hr k1
        exact .inr ⟨k4, [], _, rfl, by rw [k2]; exact .refl _, .step hc k3 k5⟩
  have liftR : ∀ q w p, Run re.Edge q w p → Run (d.complementCore.concat re).Edge (d.complementCore.size + q) w (d.complementCore.size + p) := by
    intro q w p hr
    have step : ∀ {q c p}, re.Edge q c p → (d.complementCore.concat re).Edge (d.complementCore.size + q) c (d.complementCore.size + p) := by
      intro q c p e
      refine (s5 _ _ _).2 (.inr (.inl ⟨by omega, by omega, ?_⟩))
      rw [show d.complementCore.size + q - d.complementCore.size = q by omega, show d.complementCore.size + p - d.complementCore.size = p by omega]
      exact e
    induction hr with
    | refl => exact .refl _
    | eps e _ ih => exact .eps (step e) ih
    | step hc e _ ih => exact .step hc (step e) ih
  have nilRe : ∀ a b, Run re.Edge a [] b → a = b := by
    intro a b hr
    cases hr with
    | refl => rfl
    | eps e _ =>
      have := ((h.edge _ _ _).1 e).2.2
      omega
  have nilD : ∀ a b, Run d.Edge a [] b → a = b := by
    intro a b hr
    cases hr with
    | refl => rfl
    | eps e _ => exact absurd e d1.no_eps
  have hreach : ∀ u c p, IsWord u → IsLetter c → (p ∈ (d.complementCore.concat re).removeEpsilons.reached (u ++ [c]) ↔
      (p < d.size ∧ Run d.Edge d.initial (u ++ [c]) p) ∨ (d.complementCore.size ≤ p ∧ Run re.Edge re.initial (u ++ [c]) (p - d.complementCore.size))) := by
    intro u c p hu hc
    rw [reached_snoc s6 hc, s2, c2]
    constructor
    · rintro ⟨q, hr, e⟩
      rcases runF _ _ _ hr (by omega) with ⟨k1, k2⟩ | ⟨k1, x, y, rfl, k2, k3⟩
      · rcases (s5 _ _ _).1 e with e | ⟨k3, _⟩ | ⟨k3, k4, e⟩
        · rcases (cE _ _ _).1 e with e | ⟨_, _, _, k⟩
          · rcases runY _ _ _ k2 hi0 with ⟨_, k5⟩ | ⟨k5, _⟩
            · exact .inl ⟨(d1.wf.edge_lt e).2.2, k5.snoc hc.2 e⟩
            · have := (d1.wf.edge_lt e).1; omega
          · exact absurd k hc.2
        · omega
        · rw [c3, Finset.mem_singleton] at k3
          have : u = [] := onlyNil u (by rw [c2, ← k3]; exact k2)
          subst this
          exact .inr ⟨k4, .step hc.2 e (.refl _)⟩
      · rcases (s5 _ _ _).1 e with e | ⟨_, k4, e⟩ | ⟨k4, _, _⟩
        · have := (d5.wf.edge_lt e).1; omega
        · have : x = [] := onlyNil x (by rw [c2]; exact k2)
          subst this
          exact .inr ⟨k4, k3.snoc hc.2 e⟩
        · have := d5.wf.fin_lt _ k4; omega
    · rintro (⟨k1, k2⟩ | ⟨k1, k2⟩)
      · obtain ⟨x, r1, r2⟩ := run_append_inv k2
        obtain ⟨x1, x2, r3, -, e, r4⟩ := r2.cons_inv
        have := nilD _ _ r3; subst this
        have := nilD _ _ r4; subst this
        refine ⟨x, r1.mono fun q c p e => (s5 _ _ _).2 (.inl ((cE _ _ _).2 (.inl e))), (s5 _ _ _).2 (.inl ((cE _ _ _).2 (.inl e)))⟩
      · obtain ⟨x, r1, r2⟩ := run_append_inv k2
        obtain ⟨x1, x2, r3, -, e, r4⟩ := r2.cons_inv
        have := nilRe _ _ r3; subst this
        have := nilRe _ _ r4; subst this
        have hnf : d.initial ∉ d.finals := fun hf => (d2 [] (fun x hx => by cases hx)).1 ⟨_, hf, .refl _⟩ rfl
        have heps : (d.complementCore.concat re).Edge d.initial 257 d.size := (s5 _ _ _).2 (.inl ((cE _ _ _).2 (.inr ⟨by omega, hnf, rfl, rfl⟩)))
        cases u with
        | nil =>
          have := nilRe _ _ r1; subst this
          exact ⟨d.size, .eps heps (.refl _), (s5 _ _ _).2 (.inr (.inr ⟨by rw [c3, Finset.mem_singleton], k1, e⟩))⟩
        | cons b u =>
          obtain ⟨y1, y2, r5, hb, e', r6⟩ := r1.cons_inv
          have := nilRe _ _ r5; subst this
          refine ⟨d.complementCore.size + x, .eps heps (.step hb ((s5 _ _ _).2 (.inr (.inr ⟨by rw [c3, Finset.mem_singleton],
            Nat.le_add_right d.complementCore.size y2, ?_⟩))) (liftR _ _ _ r6)), ?_⟩
          · rw [show d.complementCore.size + y2 - d.complementCore.size = y2 by omega]; exact e'
          · refine (s5 _ _ _).2 (.inr (.inl ⟨by omega, k1, ?_⟩))
            rw [show d.complementCore.size + x - d.complementCore.size = x by omega]
            exact e
  -- all words but the empty one lead to the same state of `d`
  have same : ∀ w w', IsWord w → IsWord w' → w ≠ [] → w' ≠ [] → ∀ p, Run d.Edge d.initial w p → Run d.Edge d.initial w' p := by
    intro w w' hw hw' hne hne' p hr
    obtain ⟨p', k1, k2⟩ := d1.exists_run hw' hi0
    have : p = p' := by
      refine d3 p (d1.wf.run_lt hr hi0) p' k1 ?_
      ext v
      rw [d1.residual hr, d1.residual k2]
      have hiff : ∀ w, IsWord w → w ≠ [] → (w ++ v ∈ d.Lang ↔ IsWord v) := by
        intro w hw hne
        constructor
        · rintro ⟨x, _, hx⟩
          exact fun c hc => d1.wf.run_word hx c (List.mem_append_right _ hc)
        · intro hv
          exact (d2 _ (isWord_append hw hv)).2 (by simp [hne])
      rw [hiff w hw hne, hiff w' hw' hne']
    rw [this]; exact k2
  have hbound := det_bound f1.wf f2 (τ := Option (Fin (n + 1)))
    (fun w => if hw : w = List.replicate w.length 97 ∧ w.length < n + 1 then some ⟨w.length, hw.2⟩ else none) (by
    intro w w' hw hw' hk
    have hnil : ∀ w : List Nat, w = [] ↔ (w = List.replicate w.length 97 ∧ w.length < n + 1) ∧ w.length = 0 := by
      intro w
      constructor
      · rintro rfl; exact ⟨⟨rfl, Nat.succ_pos _⟩, rfl⟩
      · rintro ⟨_, h⟩; exact List.length_eq_zero_iff.1 h
    have hcase : w = w' ∨ (w ≠ [] ∧ w' ≠ [] ∧ ∀ k ≤ n, w ≠ List.replicate k 97 ∧ w' ≠ List.replicate k 97) := by
      by_cases a : w = List.replicate w.length 97 ∧ w.length < n + 1 <;> by_cases b : w' = List.replicate w'.length 97 ∧ w'.length < n + 1
      · rw [dif_pos a, dif_pos b] at hk
        have : w.length = w'.length := by simpa using hk
        left
        rw [a.1, b.1, this]
      · rw [dif_pos a, dif_neg b] at hk; cases hk
      · rw [dif_neg a, dif_pos b] at hk; cases hk
      · right
        have hno : ∀ w : List Nat, ¬ (w = List.replicate w.length 97 ∧ w.length < n + 1) → ∀ k ≤ n, w ≠ List.replicate k 97 := by
          intro w hw k hk e
          apply hw
          have : w.length = k := by rw [e, List.length_replicate]
          rw [this]
          exact ⟨e, by omega⟩
        refine ⟨fun e => a ((hnil w).1 e).1, fun e => b ((hnil w').1 e).1, fun k hk => ⟨hno w a k hk, hno w' b k hk⟩⟩
    rcases hcase with rfl | ⟨k1, k2, k3⟩
    · rfl
    · rcases List.eq_nil_or_concat w with rfl | ⟨u, c, rfl⟩
      · exact absurd rfl k1
      rcases List.eq_nil_or_concat w' with rfl | ⟨u', c', rfl⟩
      · exact absurd rfl k2
      rw [List.concat_eq_append, List.concat_eq_append] at *
      ext p
      rw [hreach u c p (fun x hx => hw x (List.mem_append_left _ hx)) (hw c (by simp)),
        hreach u' c' p (fun x hx => hw' x (List.mem_append_left _ hx)) (hw' c' (by simp)), h.run, h.run]
      have e1 : ¬ (u ++ [c] = List.replicate (p - d.complementCore.size) 97 ∧ p - d.complementCore.size ≤ n) := fun e => (k3 _ e.2).1 e.1
      have e2 : ¬ (u' ++ [c'] = List.replicate (p - d.complementCore.size) 97 ∧ p - d.complementCore.size ≤ n) := fun e => (k3 _ e.2).2 e.1
      simp only [e1, e2, and_false, or_false]
      exact and_congr_right fun _ => ⟨same _ _ hw hw' k1 k2 p, same _ _ hw' hw k2 k1 p⟩)
  rw [Fintype.card_option, Fintype.card_fin] at hbound
  obtain ⟨b1, b2⟩ := hbound (by omega)
  have hl9 : ∀ c < 9, IsLetter c := fun c hc => ⟨by omega, by omega⟩
  refine small_ok h.good Good.init he ht ht2 hd b1 (by omega) ?_
  intro c hc
  refine det_equi f1.wf f2 b1 (hl9 c hc) (hl9 0 (by omega)) ?_
  intro q p
  rw [s5, s5, d4 c hc q p, h.edge, h.edge, h.edge, h.edge]
  have k1 : c ≠ 97 := by omega
  simp only [k1, show ¬ (0 : Nat) = 97 by omega, and_false]

end Count
end Pire
