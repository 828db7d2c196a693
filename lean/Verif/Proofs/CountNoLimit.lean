import Verif.Proofs.CountGlue

/-!
# `NoGlueLimitCountingScanner`: running and gluing
-/

namespace Pire
namespace Count
open Spec Loaded

/-- What an action (lists of resets and of increments) does to counter `i`. -/
def nlOps (i : Nat) (x : List Nat × List Nat) : List Op :=
  (x.1.filter (· == i)).map (fun _ => .reset) ++ (x.2.filter (· == i)).map fun _ => .inc

/-- An operation on a 32-bit counter and the best value kept. -/
def opMod (x : Nat × Nat) : Op → Nat × Nat
  | .inc => ((x.1 + 1) % 2 ^ 32, max x.2 ((x.1 + 1) % 2 ^ 32))
  | .reset => (0, x.2)

/-- What concerns counter `i`. -/
def nlLoc (s : State) (i : Nat) : Nat × Nat := (s.current i, s.total i)

theorem foldl_opMod (l : List Op) (h : l.length < 2 ^ 32) : l.foldl opMod (0, 0) = ops l := by
  induction l using List.reverseRecOn with
  | nil => rfl
  | append_singleton l o ih =>
    rw [List.length_append, List.length_singleton] at h
    rw [List.foldl_append, ih (by omega), ops_snoc]
    cases o with
    | reset => rfl
    | inc =>
      have h1 := ops_le l
      have h2 := ops_len l
      show ((_ + 1) % 2 ^ 32, max _ ((_ + 1) % 2 ^ 32)) = (_ + 1, max _ (_ + 1))
      rw [Nat.mod_eq_of_lt (by omega)]

theorem resets_loc {n : Nat} (rs : List Nat) (h : ∀ r ∈ rs, r < n) (s : State) : ∃ s', rs.foldlM (resetOne n) s = some s' ∧ s'.st = s.st ∧
    ∀ i, nlLoc s' i = ((rs.filter (· == i)).map fun _ => Op.reset).foldl opMod (nlLoc s i) := by
  induction rs generalizing s with
  | nil => exact ⟨s, rfl, rfl, fun _ => rfl⟩
  | cons r rs ih =>
    obtain ⟨s', h1, h2, h3⟩ := ih (fun x hx => h x (by simp [hx])) { s with current := Function.update s.current r 0 }
    refine ⟨s', ?_, h2, fun i => ?_⟩
    · rw [List.foldlM_cons]
      have : resetOne n s r = some { s with current := Function.update s.current r 0 } := by unfold resetOne; rw [if_pos (h r (by simp))]
      rw [this]; exact h1
    · rw [h3 i]
      by_cases hr : r = i
      · subst hr
        simp [nlLoc, opMod]
      · have : nlLoc { s with current := Function.update s.current r 0 } i = nlLoc s i := by
          unfold nlLoc; simp [Function.update_of_ne (Ne.symm hr)]
        rw [this]
        simp [hr]

theorem incs_loc {n : Nat} (rs : List Nat) (h : ∀ r ∈ rs, r < n) (s : State) : ∃ s', rs.foldlM (incOne n) s = some s' ∧ s'.st = s.st ∧
    ∀ i, nlLoc s' i = ((rs.filter (· == i)).map fun _ => Op.inc).foldl opMod (nlLoc s i) := by
  induction rs generalizing s with
  | nil => exact ⟨s, rfl, rfl, fun _ => rfl⟩
  | cons r rs ih =>
    obtain ⟨s', h1, h2, h3⟩ := ih (fun x hx => h x (by simp [hx]))
      { s with current := Function.update s.current r ((s.current r + 1) % 2 ^ 32), total := Function.update s.total r (max (s.total r) ((s.current r + 1) % 2 ^ 32)) }
    refine ⟨s', ?_, h2, fun i => ?_⟩
    · rw [List.foldlM_cons]
      have : incOne n s r = some { s with current := Function.update s.current r ((s.current r + 1) % 2 ^ 32), total := Function.update s.total r (max (s.total r) ((s.current r + 1) % 2 ^ 32)) } := by
        unfold incOne; rw [if_pos (h r (by simp))]
      rw [this]; exact h1
    · rw [h3 i]
      by_cases hr : r = i
      · subst hr
        simp [nlLoc, opMod]
      · have : nlLoc { s with current := Function.update s.current r ((s.current r + 1) % 2 ^ 32), total := Function.update s.total r (max (s.total r) ((s.current r + 1) % 2 ^ 32)) } i = nlLoc s i := by
          unfold nlLoc; simp [Function.update_of_ne (Ne.symm hr)]
        rw [this]
        simp [hr]

/-- The lists of an action are available, and name counters the state has. -/
def Readable (s : NoLimit) (a : Nat) (x : List Nat × List Nat) : Prop :=
  s.getActions a 0 = some x ∧ (∀ i ∈ x.1, i < s.base.reCount) ∧ ∀ i ∈ x.2, i < s.base.reCount

theorem readIds_bound {l : List Nat} {p n : Nat} {x : List Nat} (h : readIds l p n = some x) : x.length = n ∧ p + n ≤ l.length ∧ ∀ i ∈ x, i ∈ l := by
  unfold readIds at h
  split at h
  · cases h
    refine ⟨by rw [List.length_take, List.length_drop]; omega, by assumption, fun i hi => ?_⟩
    exact List.mem_of_mem_drop (List.mem_of_mem_take hi)
  · cases h

/-- The entries of the table of actions are 32-bit numbers. -/
def Ids32 (s : NoLimit) : Prop := ∀ l, s.actions = some l → ∀ i ∈ l, i < 2 ^ 32

theorem readAction_mem {l : List Nat} {a : Nat} {x : List Nat × List Nat} (h : readAction l a = some x) : (∀ i ∈ x.1, i ∈ l) ∧ ∀ i ∈ x.2, i ∈ l := by
  unfold readAction at h
  simp only [Option.bind_eq_some_iff, Option.map_eq_some_iff] at h
  obtain ⟨n, -, rs, h2, m, -, is, h4, rfl⟩ := h
  exact ⟨(readIds_bound h2).2.2, (readIds_bound h4).2.2⟩

theorem map_mod_id (l : List Nat) (h : ∀ i ∈ l, i < 2 ^ 32) : (l.map fun i => (i + 0) % 2 ^ 32) = l := by
  have : ∀ i ∈ l, (i + 0) % 2 ^ 32 = id i := fun i hi => by rw [Nat.add_zero, Nat.mod_eq_of_lt (h i hi)]; rfl
  rw [List.map_congr_left this, List.map_id]

/-- `GetActions` with a shift. -/
theorem getActions_shift {s : NoLimit} (h32 : Ids32 s) {a sh : Nat} {x : List Nat × List Nat} (h : Readable s a x) (hs : s.base.reCount + sh < 2 ^ 32) :
    s.getActions a sh = some (x.1.map (· + sh), x.2.map (· + sh)) := by
  obtain ⟨h1, h2, h3⟩ := h
  unfold NoLimit.getActions at h1 ⊢
  split
  · rename_i h0
    rw [if_pos h0] at h1
    cases h1; rfl
  · rename_i h0
    rw [if_neg h0] at h1
    cases hact : s.actions with
    | none =>
      rw [hact] at h1
      simp only [Option.some.injEq] at h1
      subst h1
      simp only
      split <;> split <;> simp
    | some l =>
      rw [hact] at h1
      simp only [Option.map_eq_some_iff] at h1 ⊢
      obtain ⟨y, hy, rfl⟩ := h1
      obtain ⟨m1, m2⟩ := readAction_mem hy
      rw [map_mod_id _ fun i hi => h32 l hact i (m1 i hi), map_mod_id _ fun i hi => h32 l hact i (m2 i hi)] at h2 h3 ⊢
      refine ⟨y, hy, ?_⟩
      congr 1
      · exact List.map_congr_left fun i hi => Nat.mod_eq_of_lt (by have := h2 i hi; omega)
      · exact List.map_congr_left fun i hi => Nat.mod_eq_of_lt (by have := h3 i hi; omega)

/-- `TakeAction` does what the lists say. -/
theorem take_nl {s : NoLimit} (h32 : Ids32 s) (hc : s.compat = false) {a : Nat} {x : List Nat × List Nat} (h : Readable s a x) (st : State) :
    ∃ st', s.take st a = some st' ∧ st'.st = st.st ∧ ∀ i, nlLoc st' i = (nlOps i x).foldl opMod (nlLoc st i) := by
  obtain ⟨h1, h2, h3⟩ := h
  unfold NoLimit.getActions at h1
  unfold NoLimit.take
  split
  · rename_i h0
    rw [if_pos h0] at h1
    cases h1
    exact ⟨st, rfl, rfl, fun _ => rfl⟩
  · rename_i h0
    rw [if_neg h0] at h1
    rw [hc]
    simp only [Bool.false_eq_true, if_false]
    obtain ⟨s1, k1, k2, k3⟩ := resets_loc x.1 h2 st
    obtain ⟨s2, l1, l2, l3⟩ := incs_loc x.2 h3 s1
    have hfin : s2.st = st.st ∧ ∀ i, nlLoc s2 i = (nlOps i x).foldl opMod (nlLoc st i) := by
      refine ⟨l2.trans k2, fun i => ?_⟩
      unfold nlOps
      rw [List.foldl_append, l3, k3]
    cases hact : s.actions with
    | some l =>
      rw [hact] at h1
      simp only [Option.map_eq_some_iff] at h1
      obtain ⟨y, hy, rfl⟩ := h1
      obtain ⟨m1, m2⟩ := readAction_mem hy
      simp only at k1 l1
      rw [map_mod_id _ fun i hi => h32 l hact i (m1 i hi)] at k1
      rw [map_mod_id _ fun i hi => h32 l hact i (m2 i hi)] at l1
      refine ⟨s2, ?_, hfin⟩
      simp only
      rw [hy, Option.bind_some, k1]
      exact l1
    | none =>
      rw [hact] at h1
      simp only [Option.some.injEq] at h1
      subst h1
      simp only at k1 l1 ⊢
      refine ⟨s2, ?_, hfin⟩
      have e1 : (if a &&& 2 ≠ 0 then resetOne s.base.reCount st 0 else some st) = some s1 := by
        rw [← k1]
        split <;> simp
      rw [e1]
      show (if a &&& 1 ≠ 0 then incOne s.base.reCount s1 0 else some s1) = some s2
      rw [← l1]
      split <;> simp

/-- A `NoGlueLimitCountingScanner` in memory; `D` = the lists of the actions on the transitions. -/
structure NLSound (s : NoLimit) (T : ATbl) (D : Nat → List Nat × List Nat) : Prop where
  repr : Repr s.base T
  compat : s.compat = false
  ids : Ids32 s
  read : ∀ q < T.n, ∀ c, IsLetter c → Readable s (T.act q c) (D (T.act q c))

/-- The run: no bad access; every counter gets its operations. -/
theorem run_nl {s : NoLimit} {T : ATbl} {D : Nat → List Nat × List Nat} (h : NLSound s T D) {w : List Nat} (hw : IsWord w) :
    ∃ st, (scnNoLimit s).after (scnNoLimit s).initial w = some st ∧ st.st = s.base.indexToState (T.after T.q0 w) ∧
      ∀ i, nlLoc st i = ((T.acts T.q0 w).flatMap fun a => nlOps i (D a)).foldl opMod (0, 0) := by
  have gen : ∀ (w : List Nat), IsWord w → ∀ (q : Nat), q < T.n → ∀ x : State, x.st = s.base.indexToState q →
      ∃ st, (scnNoLimit s).after (some x) w = some st ∧ st.st = s.base.indexToState (T.after q w) ∧
        ∀ i, nlLoc st i = ((T.acts q w).flatMap fun a => nlOps i (D a)).foldl opMod (nlLoc x i) := by
    intro w
    induction w with
    | nil => intro _ q hq x hx; exact ⟨x, rfl, hx, fun _ => rfl⟩
    | cons c w ih =>
      intro hw q hq x hx
      have hc : IsLetter c := hw c (by simp)
      have hn := h.repr.next q hq c hc
      obtain ⟨st', k1, k2, k3⟩ := take_nl h.ids h.compat (h.read q hq c hc) { x with st := s.base.indexToState (T.step q c) }
      have e1 : (scnNoLimit s).step (some x) c = some st' := by
        unfold Scn.step scnNoLimit
        simp only [Option.map_some, Option.getD_some, Option.bind_some]
        rw [hx, hn]
        exact k1
      obtain ⟨st, j1, j2, j3⟩ := ih (fun x hx => hw x (by simp [hx])) (T.step q c) (h.repr.step_lt q hq c hc) st' k2
      refine ⟨st, ?_, j2, fun i => ?_⟩
      · show (scnNoLimit s).after ((scnNoLimit s).step (some x) c) w = _
        rw [e1]; exact j1
      · rw [j3 i, k3 i]
        show _ = (List.flatMap _ (T.act q c :: _)).foldl opMod _
        rw [List.flatMap_cons, List.foldl_append]
        rfl
  exact gen w hw T.q0 h.repr.q0 _ h.repr.initial

/-! ### Gluing -/

theorem readIds_append {l : List Nat} {p n : Nat} {x : List Nat} (h : readIds l p n = some x) (l' : List Nat) : readIds (l ++ l') p n = some x := by
  unfold readIds at h ⊢
  split at h
  · rename_i hp
    rw [if_pos (by rw [List.length_append]; omega)]
    rw [← h, List.drop_append_of_le_length (by omega), List.take_append_of_le_length (by rw [List.length_drop]; omega)]
  · cases h

theorem readAction_append {l : List Nat} {a : Nat} {x : List Nat × List Nat} (h : readAction l a = some x) (l' : List Nat) : readAction (l ++ l') a = some x := by
  unfold readAction at h ⊢
  simp only [Option.bind_eq_some_iff, Option.map_eq_some_iff] at h ⊢
  obtain ⟨n, h1, rs, h2, m, h3, is, h4, rfl⟩ := h
  have hg : ∀ {i v : Nat}, l[i]? = some v → (l ++ l')[i]? = some v := fun {i v} h => by
    rw [List.getElem?_append_left (List.getElem?_eq_some_iff.1 h).1]; exact h
  exact ⟨n, hg h1, rs, readIds_append h2 l', m, hg h3, is, readIds_append h4 l', rfl⟩

theorem readIds_set {l : List Nat} {p n v : Nat} (hp : 0 < p) : readIds (l.set 0 v) p n = readIds l p n := by
  unfold readIds
  rw [List.length_set, List.drop_set_of_lt hp]

theorem readAction_set {l : List Nat} {a v : Nat} (ha : a ≠ 0) : readAction (l.set 0 v) a = readAction l a := by
  unfold readAction
  rw [List.getElem?_set_ne (Ne.symm ha)]
  congr 1
  funext n
  rw [readIds_set (by omega)]
  congr 1
  funext rs
  rw [List.getElem?_set_ne (by omega)]
  congr 1
  funext m
  rw [readIds_set (by omega)]

theorem readAction_new (l : List Nat) (x : List Nat × List Nat) : readAction (l ++ x.1.length :: x.1 ++ x.2.length :: x.2) l.length = some x := by
  obtain ⟨rs, is⟩ := x
  unfold readAction
  simp only [Option.bind_eq_some_iff, Option.map_eq_some_iff]
  refine ⟨rs.length, ?_, rs, ?_, is.length, ?_, is, ?_, rfl⟩
  · simp
  · unfold readIds
    rw [if_pos (by simp; omega)]
    congr 1
    have : l ++ rs.length :: rs ++ is.length :: is = (l ++ [rs.length]) ++ (rs ++ is.length :: is) := by simp
    rw [this, List.drop_append_of_le_length (by simp), List.drop_of_length_le (by simp), List.nil_append, List.take_append_of_le_length (by simp),
      List.take_length]
  · have : l ++ rs.length :: rs ++ is.length :: is = (l ++ rs.length :: rs) ++ (is.length :: is) := by simp
    rw [this, List.getElem?_append_right (by simp; omega)]
    have e : l.length + 1 + rs.length - (l ++ rs.length :: rs).length = 0 := by simp; omega
    rw [e]; rfl
  · unfold readIds
    rw [if_pos (by simp; omega)]
    congr 1
    have : l ++ rs.length :: rs ++ is.length :: is = (l ++ rs.length :: rs ++ [is.length]) ++ is := by simp
    rw [this, List.drop_append_of_le_length (by simp; omega), List.drop_of_length_le (by simp; omega), List.nil_append, List.take_length]

section
variable {a b : NoLimit} {Ta Tb : ATbl} {Da Db : Nat → List Nat × List Nat}

/-- The lists of a glued action. -/
def glueLists (n : Nat) (x y : List Nat × List Nat) : List Nat × List Nat := (x.1 ++ y.1.map (· + n), x.2 ++ y.2.map (· + n))

/-- The index of an action. -/
def look (m : List ((List Nat × List Nat) × Nat)) (x : List Nat × List Nat) : Nat := if x = ([], []) then 0 else (m.lookup x).getD 0

/-- `Connect` when the lists of the action are known. -/
def connectPure (g : GlueState) (y : (Nat × Nat × Nat) × (List Nat × List Nat)) : GlueState :=
  let x := y.1
  let act := y.2
  if act.2 = [] ∧ act.1 = [] then { g with sc := g.sc.setJump x.1 x.2.2 x.2.1 0 }
  else
    match g.map.lookup act with
    | some i => { g with sc := g.sc.setJump x.1 x.2.2 x.2.1 i }
    | none =>
      let i := g.acts.length % 2 ^ 32
      { sc := g.sc.setJump x.1 x.2.2 x.2.1 i
        map := (act, i) :: g.map
        acts := g.acts ++ act.1.length % 2 ^ 32 :: act.1 ++ act.2.length % 2 ^ 32 :: act.2 }

theorem connectPure_grow (g : GlueState) (y : (Nat × Nat × Nat) × (List Nat × List Nat)) : g.acts <+: (connectPure g y).acts := by
  unfold connectPure
  simp only
  split
  · exact List.prefix_rfl
  · split
    · exact List.prefix_rfl
    · exact ⟨_, (List.append_assoc _ _ _).symm⟩

/-- What the fold of `Connect` leaves. -/
structure CInv (s0 : Loaded) (l : List ((Nat × Nat × Nat) × (List Nat × List Nat))) (g : GlueState) : Prop where
  sc : g.sc = s0.setJumps (l.map fun y => ⟨y.1.1, y.1.2.2, y.1.2.1, look g.map y.2⟩)
  known : ∀ y ∈ l, y.2 ≠ ([], []) → (g.map.lookup y.2).isSome
  read : ∀ k v, g.map.lookup k = some v → v ≠ 0 ∧ v < 2 ^ 32 ∧ readAction g.acts v = some k
  pos : 0 < g.acts.length
  ids : (∀ y ∈ l, (∀ i ∈ y.2.1, i < 2 ^ 32) ∧ ∀ i ∈ y.2.2, i < 2 ^ 32) → ∀ i ∈ g.acts, i < 2 ^ 32

theorem setJumps_snoc (s : Loaded) (W : List Jump) (w : Jump) : s.setJumps (W ++ [w]) = (s.setJumps W).setJump w.src w.c w.dst w.act := by
  unfold setJumps; rw [List.foldl_append]; rfl

theorem connect_fold (s0 : Loaded) (l : List ((Nat × Nat × Nat) × (List Nat × List Nat)))
    (hlen : (l.foldl connectPure ⟨s0, [], [1]⟩).acts.length < 2 ^ 32) : CInv s0 l (l.foldl connectPure ⟨s0, [], [1]⟩) := by
  induction l using List.reverseRecOn with
  | nil => exact ⟨rfl, by simp, by simp, by simp, by simp⟩
  | append_singleton l y ih =>
    rw [List.foldl_append, List.foldl_cons, List.foldl_nil] at hlen ⊢
    generalize hg : l.foldl connectPure ⟨s0, [], [1]⟩ = g at ih hlen ⊢
    have hgl := (connectPure_grow g y).length_le
    have ih := ih (by omega)
    unfold connectPure at hlen ⊢
    simp only at hlen ⊢
    split
    · rename_i h
      have hy : y.2 = ([], []) := Prod.ext h.2 h.1
      refine ⟨?_, ?_, ih.read, ih.pos, fun h => ih.ids fun y hy => h y (by simp [hy])⟩
      · simp only
        rw [List.map_append, List.map_singleton, setJumps_snoc, ← ih.sc]
        simp [look, hy]
      · intro z hz hn
        rcases List.mem_append.1 hz with hz | hz
        · exact ih.known z hz hn
        · rw [List.mem_singleton.1 hz] at hn; exact absurd hy hn
    · rename_i h
      rw [if_neg h] at hlen
      have hy : y.2 ≠ ([], []) := fun e => h ⟨congrArg Prod.snd e, congrArg Prod.fst e⟩
      cases hl : g.map.lookup y.2 with
      | some i =>
        simp only
        refine ⟨?_, ?_, ih.read, ih.pos, fun h => ih.ids fun y hy => h y (by simp [hy])⟩
        · simp only
          rw [List.map_append, List.map_singleton, setJumps_snoc, ← ih.sc]
          simp [look, hy, hl]
        · intro z hz hn
          rcases List.mem_append.1 hz with hz | hz
          · exact ih.known z hz hn
          · rw [List.mem_singleton.1 hz, hl]; rfl
      | none =>
        rw [hl] at hlen
        simp only at hlen ⊢
        have hlk : ∀ k, k ≠ y.2 → ((y.2, g.acts.length % 2 ^ 32) :: g.map).lookup k = g.map.lookup k := by
          intro k hk
          rw [List.lookup_cons]
          have : (k == y.2) = false := beq_eq_false_iff_ne.2 hk
          rw [this]
        have hlk' : ((y.2, g.acts.length % 2 ^ 32) :: g.map).lookup y.2 = some (g.acts.length % 2 ^ 32) := by simp
        simp only [List.length_append, List.length_cons] at hlen
        have m0 : g.acts.length % 2 ^ 32 = g.acts.length := Nat.mod_eq_of_lt (by omega)
        have m1 : y.2.1.length % 2 ^ 32 = y.2.1.length := Nat.mod_eq_of_lt (by omega)
        have m2 : y.2.2.length % 2 ^ 32 = y.2.2.length := Nat.mod_eq_of_lt (by omega)
        refine ⟨?_, ?_, ?_, ?_, ?_⟩
        · simp only
          rw [List.map_append, List.map_singleton, setJumps_snoc]
          have e1 : look ((y.2, g.acts.length % 2 ^ 32) :: g.map) y.2 = g.acts.length % 2 ^ 32 := by
            unfold look; rw [if_neg hy, hlk']; rfl
          simp only [e1]
          congr 1
          rw [ih.sc]
          congr 1
          apply List.map_congr_left
          intro z hz
          congr 1
          by_cases hzn : z.2 = ([], [])
          · unfold look; rw [if_pos hzn, if_pos hzn]
          · have hne : z.2 ≠ y.2 := fun e => by
              have := ih.known z hz hzn
              rw [e, hl] at this; cases this
            unfold look
            rw [if_neg hzn, if_neg hzn, hlk _ hne]
        · intro z hz hn
          simp only
          by_cases he : z.2 = y.2
          · rw [he, hlk']; rfl
          · rw [hlk _ he]
            rcases List.mem_append.1 hz with hz | hz
            · exact ih.known z hz hn
            · exact absurd (by rw [List.mem_singleton.1 hz]) he
        · intro k v hkv
          simp only at hkv ⊢
          rw [m1, m2]
          by_cases he : k = y.2
          · subst he
            rw [hlk'] at hkv
            cases hkv
            rw [m0]
            exact ⟨by have := ih.pos; omega, by omega, readAction_new g.acts y.2⟩
          · rw [hlk _ he] at hkv
            obtain ⟨k1, k2, k3⟩ := ih.read k v hkv
            refine ⟨k1, k2, ?_⟩
            rw [List.append_assoc]
            exact readAction_append k3 _
        · simp only [List.length_append, List.length_cons]; omega
        · intro h
          simp only
          have h1 := ih.ids fun z hz => h z (by simp [hz])
          have h2 := h y (by simp)
          intro i hi
          simp only [List.mem_append, List.mem_cons] at hi
          rcases hi with (hi | rfl | hi) | rfl | hi
          · exact h1 i hi
          · exact Nat.mod_lt _ (by norm_num)
          · exact h2.1 i hi
          · exact Nat.mod_lt _ (by norm_num)
          · exact h2.2 i hi

/-- The lists of the action of a connection. -/
def connLists (a b : NoLimit) (Da Db : Nat → List Nat × List Nat) (states : List (Nat × Nat)) (x : Nat × Nat × Nat) : List Nat × List Nat :=
  glueLists a.base.reCount (Da (a.base.actionAt (states.getD x.1 (0, 0)).1 x.2.2)) (Db (b.base.actionAt (states.getD x.1 (0, 0)).2 x.2.2))

variable {states : List (Nat × Nat)} {conns : List (Nat × Nat × Nat)} {max : Nat}

theorem conn_facts (ha : NLSound a Ta Da) (hb : NLSound b Tb Db) (hr : (glueTask a.base b.base).RunSpec max states conns)
    {x : Nat × Nat × Nat} (hx : x ∈ conns) :
    x.1 < states.length ∧ IsLetter x.2.2 ∧ Readable a (a.base.actionAt (states.getD x.1 (0, 0)).1 x.2.2) (Da (a.base.actionAt (states.getD x.1 (0, 0)).1 x.2.2)) ∧
      Readable b (b.base.actionAt (states.getD x.1 (0, 0)).2 x.2.2) (Db (b.base.actionAt (states.getD x.1 (0, 0)).2 x.2.2)) := by
  obtain ⟨i, j, c⟩ := x
  obtain ⟨s, g1, -, ⟨e, he, rfl⟩, -⟩ := (hr.conns i j c).1 hx
  have hi := (List.getElem?_eq_some_iff.1 g1).1
  have hcl := glue_letter he ((glueLetters_wf a.base b.base).rep_mem e he)
  obtain ⟨p1, p2, p3⟩ := glue_pair ha.repr hb.repr hr hi
  refine ⟨hi, hcl, ?_, ?_⟩
  · simp only
    rw [p3]
    simp only
    rw [ha.repr.actionAt p1 hcl]
    exact ha.read _ p1 _ hcl
  · simp only
    rw [p3]
    simp only
    rw [hb.repr.actionAt p2 hcl]
    exact hb.read _ p2 _ hcl

theorem glue_fold (ha : NLSound a Ta Da) (hb : NLSound b Tb Db) (hr : (glueTask a.base b.base).RunSpec max states conns)
    (hsz : a.base.reCount + b.base.reCount < 2 ^ 32) (g : GlueState) (l : List (Nat × Nat × Nat)) (hl : ∀ x ∈ l, x ∈ conns) :
    l.foldlM (connectNoLimit a b states) g = some ((l.map fun x => (x, connLists a b Da Db states x)).foldl connectPure g) := by
  induction l generalizing g with
  | nil => rfl
  | cons x l ih =>
    obtain ⟨-, -, h1, h2⟩ := conn_facts ha hb hr (hl x (by simp))
    have e : connectNoLimit a b states g x = some (connectPure g (x, connLists a b Da Db states x)) := by
      unfold connectNoLimit
      simp only
      rw [h1.1, getActions_shift hb.ids h2 (by omega)]
      rfl
    rw [List.foldlM_cons, e]
    exact ih _ fun y hy => hl y (by simp [hy])

/-- The index the glued scanner has for a pair of actions. -/
def nlComb (Da Db : Nat → List Nat × List Nat) (n : Nat) (m : List ((List Nat × List Nat) × Nat)) (x y : Nat) : Nat := look m (glueLists n (Da x) (Db y))

theorem glueNoLimit_sound {null : Loaded} {base base' maxSize : Nat} (ha : NLSound a Ta Da) (hb : NLSound b Tb Db)
    (hsz : a.base.reCount + b.base.reCount < 2 ^ 32) (ht : ¬ (glueTask a.base b.base).TooMany (glueLimit maxSize))
    (hP : (glueLetters a.base b.base).size ≤ 256) (hal : base % 8 = 0) (hbs : base ≤ 2 ^ 63) (hal' : base' % 8 = 0) (hbs' : base' ≤ 2 ^ 63)
    (hlim : glueLimit maxSize < 2 ^ 20)
    (hacts : ∀ g l, glueNoLimit null base base' a b maxSize = some g → g.actions = some l → l.length < 2 ^ 32) :
    ∃ g T D, glueNoLimit null base base' a b maxSize = some g ∧ NLSound g T D ∧ g.base.reCount = a.base.reCount + b.base.reCount ∧
      g.base.empty = false ∧
      ∀ w, IsWord w → (T.acts T.q0 w).map D = List.zipWith (fun x y => glueLists a.base.reCount (Da x) (Db y)) (Ta.acts Ta.q0 w) (Tb.acts Tb.q0 w) := by
  obtain ⟨h1, h2⟩ := DTask.run_spec (t := glueTask a.base b.base) (glueLetters_wf a.base b.base) (glueLimit maxSize)
  cases hr : (glueTask a.base b.base).run (glueLimit maxSize) with
  | none => exact absurd (h2.1 hr) ht
  | some x =>
    obtain ⟨states, conns⟩ := x
    have hrs := h1 _ _ hr
    have hfold := glue_fold ha hb hrs hsz ⟨acceptStates base a.base b.base states, [], [1]⟩ conns fun x hx => hx
    have hgl : glueNoLimit null base base' a b maxSize =
        some (NoLimit.copyCtor true base' { base := ((conns.map fun x => (x, connLists a b Da Db states x)).foldl connectPure ⟨acceptStates base a.base b.base states, [], [1]⟩).sc
                                            actions := some (((conns.map fun x => (x, connLists a b Da Db states x)).foldl connectPure ⟨acceptStates base a.base b.base states, [], [1]⟩).acts.set 0
                                              (((conns.map fun x => (x, connLists a b Da Db states x)).foldl connectPure ⟨acceptStates base a.base b.base states, [], [1]⟩).acts.length % 2 ^ 32))
                                            compat := false }) := by
      unfold glueNoLimit
      unfold glueLimit at hr
      rw [hr]
      simp only
      rw [hfold]
      rfl
    have hlen := hacts _ _ hgl rfl
    rw [List.length_set] at hlen
    have hinv := connect_fold _ _ hlen
    generalize hG : (conns.map fun x => (x, connLists a b Da Db states x)).foldl connectPure ⟨acceptStates base a.base b.base states, [], [1]⟩ = G at *
    have hL : states.length ≤ 2 ^ 20 := by have := hrs.len; omega
    have hb1 : states.length * (glueLetters a.base b.base).size ≤ 2 ^ 20 * 256 := Nat.mul_le_mul hL hP
    have hb2 : states.length * ((glueLetters a.base b.base).size * 8) = 8 * (states.length * (glueLetters a.base b.base).size) := by ring
    have hM : MaxChar = 264 := rfl
    have hlook : ∀ x, look G.map x < 2 ^ 32 := by
      intro x
      unfold look
      split
      · norm_num
      · cases hl : G.map.lookup x with
        | none => simp
        | some v => exact (hinv.read _ _ hl).2.1
    obtain ⟨k1, k2, k3, k4⟩ := glue_build (base := base) (nlComb Da Db a.base.reCount G.map) ha.repr hb.repr hrs hP hal
      (by unfold bufSize; rw [hb2, hM]; omega) (by rw [hb2]; omega)
      (act := fun x => look G.map (connLists a b Da Db states x))
      (by
        intro x hx
        show look G.map _ % 2 ^ 32 = look G.map _
        rw [Nat.mod_eq_of_lt (hlook _)]
        rfl)
    have hsc : G.sc = (acceptStates base a.base b.base states).setJumps (conns.map fun x => ⟨x.1, x.2.2, x.2.1, look G.map (connLists a b Da Db states x)⟩) := by
      rw [hinv.sc, List.map_map]; rfl
    rw [← hsc] at k1 k2 k3 k4
    have hgo : Owned G.sc base := k4.owned (by omega)
    obtain ⟨c1, c2⟩ := copyCtor_repr (own := true) (base' := base') k1 (fun _ => hgo) hal'
      (by
        rw [k4.states, k4.lettersCount]
        show base' + (MaxChar + states.length * ((glueLetters a.base b.base).size * 8) + states.length) ≤ _
        rw [hb2, hM]; omega)
    have e3 : G.sc.reCount = a.base.reCount + b.base.reCount := by
      unfold Loaded.reCount at k2 ⊢
      rw [k3, k2]
      unfold Loaded.reCount at hsz
      simp only [Bool.false_eq_true, if_false]
      omega
    have hconn : ∀ q < states.length, ∀ c, IsLetter c → ∃ x ∈ conns, x.1 = q ∧
        (glueTbl (nlComb Da Db a.base.reCount G.map) a.base b.base states).act q c = look G.map (connLists a b Da Db states x) ∧
        connLists a b Da Db states x = glueLists a.base.reCount (Da (Ta.act (pairIdx a.base b.base states q).1 c)) (Db (Tb.act (pairIdx a.base b.base states q).2 c)) := by
      intro q hq c hc
      obtain ⟨e, he, hce⟩ := glue_class_of_letter (a := a.base) (b := b.base) hc
      have hrep := glue_letter he ((glueLetters_wf a.base b.base).rep_mem e he)
      obtain ⟨-, -, hstep⟩ := glueTbl_step (nlComb Da Db a.base.reCount G.map) ha.repr hb.repr hrs hq hrep
      have hq' := List.getElem?_eq_getElem hq
      refine ⟨(q, _, e.rep), (hrs.conns _ _ _).2 ⟨_, hq', rfl, ⟨e, he, rfl⟩, by rw [← Multi.getD_of_getElem? (d := (0, 0)) hq']; exact hstep⟩, rfl, ?_, ?_⟩
      · obtain ⟨l1, l2⟩ := glue_class he hce
        show nlComb _ _ _ _ (a.base.actionAt _ c) (b.base.actionAt _ c) = nlComb _ _ _ _ (a.base.actionAt _ e.rep) (b.base.actionAt _ e.rep)
        rw [actionAt_letter _ l1, actionAt_letter _ l2]
      · obtain ⟨l1, l2⟩ := glue_class he hce
        obtain ⟨p1, p2, p3⟩ := glue_pair ha.repr hb.repr hrs hq
        unfold connLists
        simp only
        rw [← actionAt_letter _ l1, ← actionAt_letter _ l2, p3]
        simp only
        rw [ha.repr.actionAt p1 hc, hb.repr.actionAt p2 hc]
    -- the lists an index stands for
    let D : Nat → List Nat × List Nat := fun v => if v = 0 then ([], []) else (readAction G.acts v).getD ([], [])
    have hD : ∀ x ∈ conns, D (look G.map (connLists a b Da Db states x)) = connLists a b Da Db states x ∧
        (connLists a b Da Db states x ≠ ([], []) → look G.map (connLists a b Da Db states x) ≠ 0 ∧
          readAction G.acts (look G.map (connLists a b Da Db states x)) = some (connLists a b Da Db states x)) := by
      intro x hx
      by_cases hn : connLists a b Da Db states x = ([], [])
      · exact ⟨by simp [look, hn, D], fun h => absurd hn h⟩
      · obtain ⟨v, hv⟩ := Option.isSome_iff_exists.1 (hinv.known (x, connLists a b Da Db states x) (List.mem_map.2 ⟨x, hx, rfl⟩) hn)
        simp only at hv
        obtain ⟨v1, v2, v3⟩ := hinv.read _ _ hv
        have e : look G.map (connLists a b Da Db states x) = v := by unfold look; rw [if_neg hn, hv]; rfl
        rw [e]
        exact ⟨by simp [D, v1, v3], fun _ => ⟨v1, v3⟩⟩
    have hids : ∀ x ∈ conns, (∀ i ∈ (connLists a b Da Db states x).1, i < a.base.reCount + b.base.reCount) ∧
        ∀ i ∈ (connLists a b Da Db states x).2, i < a.base.reCount + b.base.reCount := by
      intro x hx
      obtain ⟨-, -, ⟨-, r1, r2⟩, ⟨-, r3, r4⟩⟩ := conn_facts ha hb hrs hx
      constructor
      · intro i hi
        rcases List.mem_append.1 hi with h | h
        · have := r1 i h; omega
        · obtain ⟨j, hj, rfl⟩ := List.mem_map.1 h
          have := r3 j hj; omega
      · intro i hi
        rcases List.mem_append.1 hi with h | h
        · have := r2 i h; omega
        · obtain ⟨j, hj, rfl⟩ := List.mem_map.1 h
          have := r4 j hj; omega
    have hid32 : ∀ i ∈ G.acts, i < 2 ^ 32 := hinv.ids fun y hy => by
      obtain ⟨x, hx, rfl⟩ := List.mem_map.1 hy
      obtain ⟨i1, i2⟩ := hids x hx
      exact ⟨fun i hi => by have := i1 i hi; omega, fun i hi => by have := i2 i hi; omega⟩
    refine ⟨_, _, D, hgl, ⟨c1, rfl, ?_, ?_⟩, c2.trans e3, rfl, ?_⟩
    · intro l hl i hi
      cases hl
      rcases List.mem_or_eq_of_mem_set hi with h | h
      · exact hid32 i h
      · rw [h]; exact Nat.mod_lt _ (by norm_num)
    · intro q hq c hc
      obtain ⟨x, hx, rfl, he, -⟩ := hconn q hq c hc
      show Readable _ ((glueTbl (nlComb Da Db a.base.reCount G.map) a.base b.base states).act x.1 c) (D ((glueTbl (nlComb Da Db a.base.reCount G.map) a.base b.base states).act x.1 c))
      rw [he]
      obtain ⟨d1, d2⟩ := hD x hx
      obtain ⟨i1, i2⟩ := hids x hx
      rw [d1]
      refine ⟨?_, fun i hi => ?_, fun i hi => ?_⟩
      · unfold NoLimit.getActions
        by_cases hn : connLists a b Da Db states x = ([], [])
        · rw [if_pos (by simp [look, hn]), hn]
        · obtain ⟨n1, n2⟩ := d2 hn
          rw [if_neg n1]
          show (readAction (G.acts.set 0 _) _).map _ = _
          rw [readAction_set n1, n2]
          simp only [Option.map_some]
          rw [map_mod_id _ fun i hi => by have := i1 i hi; omega, map_mod_id _ fun i hi => by have := i2 i hi; omega]
      · show i < (copyCtor true base' G.sc).reCount
        rw [c2, e3]; exact i1 i hi
      · show i < (copyCtor true base' G.sc).reCount
        rw [c2, e3]; exact i2 i hi
    · intro w hw
      have hsame : ∀ (T : ATbl) (f : Nat → Nat) q w, ATbl.acts { T with tag := f } q w = T.acts q w := by
        intro T f q w
        induction w generalizing q with
        | nil => rfl
        | cons c w ih => unfold ATbl.acts; rw [ih]
      rw [hsame]
      obtain ⟨z1, z2⟩ := glueTbl_zero ha.repr hb.repr hrs
      have key : ∀ (w : List Nat), IsWord w → ∀ i < states.length,
          ((glueTbl (nlComb Da Db a.base.reCount G.map) a.base b.base states).acts i w).map D =
          List.zipWith (fun x y => glueLists a.base.reCount (Da x) (Db y)) (Ta.acts (pairIdx a.base b.base states i).1 w) (Tb.acts (pairIdx a.base b.base states i).2 w) := by
        intro w
        induction w with
        | nil => intro _ i _; rfl
        | cons c w ih =>
          intro hw i hi
          have hc : IsLetter c := hw c (by simp)
          obtain ⟨s1, s2, -⟩ := glueTbl_step (nlComb Da Db a.base.reCount G.map) ha.repr hb.repr hrs hi hc
          unfold ATbl.acts
          rw [List.map_cons, List.zipWith_cons_cons, ih (fun x hx => hw x (by simp [hx])) _ s1, s2]
          congr 1
          obtain ⟨x, hx, rfl, he, he'⟩ := hconn i hi c hc
          rw [he, (hD x hx).1]
          exact he'
      have key0 := key w hw 0 z1
      rw [z2] at key0
      exact key0

end
end Count
end Pire
