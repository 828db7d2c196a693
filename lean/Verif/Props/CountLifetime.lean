import Verif.Proofs.CountLifetime
import Verif.Props.Lifetime

/-!
# `NoGlueLimitCountingScanner` variables are values: property C65

As C62, for the counting scanner that owns an array of actions beside its tables. The theorems are about every program (a list of operations, `CountLife.Op`) that respects
`LegalRun`; `values` is what variables hold when they are just values.
-/

namespace Pire
namespace Props

open CountLife Count
open Spec hiding Op

/-- The program never reads an array that has been deleted and deletes nothing twice, neither tables nor actions; in the end every variable shows a scanner that cannot be
told from its value: no operation on one variable has changed another. What is still allocated belongs to existing variables. -/
theorem C65_values {nul : Loaded} (hn : Life.LoadedMeans nul nul) {w : World} (hs : Start nul w) {ops : List Op} (hl : LegalRun nul w ops) :
    ∃ w', run nul w ops = some w' ∧
      (∀ v, values nul ops v = none ↔ w'.view nul v = none) ∧
      (∀ v x, values nul ops v = some x → ∃ s, w'.view nul v = some s ∧ Alike x s) ∧
      (∀ a, (w'.arrays.heap a).isSome → ∃ v o, w'.arrays.vars v = some o ∧ o.buffer = some a) ∧
      (∀ b ∈ w'.tables.owned, ∃ v y, w'.tables.vars v = some y ∧ y.buffer = some b.1) := by
  obtain ⟨w', h1, h2⟩ := (Inv.start hn hs).run hl
  exact ⟨w', h1, fun v => (h2.view v).1, fun v => (h2.view v).2, h2.arrays.noleak, h2.tables.noleak⟩

/-! ### What "cannot be told from" means: the same counts -/

theorem incPerform_st (i m : Nat) (s : State) (p : Nat) : incPerform i m { s with st := p } = { incPerform i m s with st := p } := by
  induction i generalizing s with
  | zero => rfl
  | succ i ih =>
    unfold incPerform
    split
    · exact ih { s with current := Function.update s.current i ((s.current i + 1) % 2 ^ 32) }
    · exact ih s

theorem resetPerform_st (i m : Nat) (s : State) (p : Nat) : resetPerform i m { s with st := p } = { resetPerform i m s with st := p } := by
  induction i generalizing s with
  | zero => rfl
  | succ i ih =>
    unfold resetPerform
    split
    · exact ih { s with total := Function.update s.total i (max (s.total i) (s.current i)), current := Function.update s.current i 0 }
    · exact ih s

theorem foldlM_st {f : State → Nat → Option State} (hf : ∀ s p a, f { s with st := p } a = (f s a).map fun r => { r with st := p }) (l : List Nat) (s : State) (p : Nat) :
    l.foldlM f { s with st := p } = (l.foldlM f s).map fun r => { r with st := p } := by
  induction l generalizing s with
  | nil => rfl
  | cons a l ih =>
    rw [List.foldlM_cons, List.foldlM_cons, hf]
    cases f s a with
    | none => rfl
    | some r => exact ih r

theorem resetOne_st (n : Nat) (s : State) (p a : Nat) : resetOne n { s with st := p } a = (resetOne n s a).map fun r => { r with st := p } := by
  unfold resetOne
  split <;> rfl

theorem incOne_st (n : Nat) (s : State) (p a : Nat) : incOne n { s with st := p } a = (incOne n s a).map fun r => { r with st := p } := by
  unfold incOne
  split <;> rfl

/-- Actions do not look at the state of the table. -/
theorem take_st (x : NoLimit) (s : State) (p a : Nat) : x.take { s with st := p } a = (x.take s a).map fun r => { r with st := p } := by
  unfold NoLimit.take
  split
  · rfl
  split
  · split
    · dsimp only
      rw [Option.map_some]
      by_cases h1 : a &&& resetMask ≠ 0
      · rw [if_pos h1, if_pos h1, resetPerform_st, incPerform_st]
        split <;> rfl
      · rw [if_neg h1, if_neg h1, incPerform_st]
        split <;> rfl
    · rfl
  split
  · rename_i l _
    cases readAction l a with
    | none => rfl
    | some y =>
      rw [Option.bind_some, Option.bind_some, foldlM_st (resetOne_st _)]
      cases y.1.foldlM (resetOne x.base.reCount) s with
      | none => rfl
      | some r => exact foldlM_st (incOne_st _) y.2 r p
  · by_cases h1 : a &&& 2 ≠ 0
    · rw [if_pos h1, if_pos h1, resetOne_st]
      cases resetOne x.base.reCount s 0 with
      | none => rfl
      | some r =>
        show (if a &&& 1 ≠ 0 then incOne _ _ _ else _) = Option.map _ (if a &&& 1 ≠ 0 then incOne _ _ _ else _)
        split
        · exact incOne_st _ r p 0
        · rfl
    · rw [if_neg h1, if_neg h1]
      show (if a &&& 1 ≠ 0 then incOne _ _ _ else _) = Option.map _ (if a &&& 1 ≠ 0 then incOne _ _ _ else _)
      split
      · exact incOne_st _ s p 0
      · rfl

theorem after_none (x : NoLimit) (w : List Nat) : (scnNoLimit x).after none w = none := by
  induction w with
  | nil => rfl
  | cons c w ih => exact ih

/-- The counters depend on the actions along the text only. -/
theorem after_actions (x : NoLimit) (w : List Nat) (s : State) : (scnNoLimit x).after (some s) w =
    ((x.base.actionsAlong s.st w).foldlM x.take s).map fun r => { r with st := w.foldl (fun st c => (x.base.next st c).1) s.st } := by
  induction w generalizing s with
  | nil => rfl
  | cons c w ih =>
    have e : (scnNoLimit x).after (some s) (c :: w) = (scnNoLimit x).after (x.take { s with st := (x.base.next s.st c).1 } (x.base.next s.st c).2) w := rfl
    rw [e, take_st]
    show _ = (((x.base.next s.st c).2 :: x.base.actionsAlong (x.base.next s.st c).1 w).foldlM x.take s).map _
    rw [List.foldlM_cons]
    cases x.take s (x.base.next s.st c).2 with
    | none => exact after_none x w
    | some r =>
      rw [Option.map_some, ih, foldlM_st (take_st x), Option.map_map]
      rfl

/-- Scanners that cannot be told apart count the same on every text (and fail together). -/
theorem C65_alike_counts {x s : NoLimit} (h : Alike x s) {t : List Nat} (ht : IsWord t) :
    ((scnNoLimit s).after (scnNoLimit s).initial t).map State.result = ((scnNoLimit x).after (scnNoLimit x).initial t).map State.result := by
  have e : s.take = x.take := by
    funext st a
    unfold NoLimit.take
    rw [h.compat, h.actions, h.reCount]
  have hi : ∀ y : NoLimit, (scnNoLimit y).after (scnNoLimit y).initial t = (scnNoLimit y).after (some (initState y.base.initial)) t := fun _ => rfl
  rw [hi, hi, after_actions, after_actions, Option.map_map, Option.map_map]
  show ((s.base.actionsAlong s.base.initial t).foldlM s.take _).map _ = ((x.base.actionsAlong x.base.initial t).foldlM x.take _).map _
  rw [e, h.base.actions t ht]
  have e1 : initState s.base.initial = { initState x.base.initial with st := s.base.initial } := rfl
  rw [e1, foldlM_st (take_st x), Option.map_map]
  rfl

/-- So: after any legal program a variable that holds the scanner of some regexps, however it was assembled, copied, assigned, moved, shows for each of them the longest
series of increments (what C47 says about the scanner itself). -/
theorem C65_counts {nul : Loaded} (hn : Life.LoadedMeans nul nul) {w : World} (hs : Start nul w) {ops : List Op} (hl : LegalRun nul w ops) :
    ∃ w', run nul w ops = some w' ∧ ∀ v own x Ms, values nul ops v = some x → BuiltNoLimit own x Ms →
      ∃ s, w'.view nul v = some s ∧ ∀ t, IsWord t → 2 * t.length < 2 ^ 32 →
        ∃ st, (scnNoLimit s).after (scnNoLimit s).initial t = some st ∧ ∀ i M, Ms[i]? = some M → MaxRun ((M.outs M.q0 t).flatMap advancedOps) (st.result i) := by
  obtain ⟨w', h1, -, h2, -⟩ := C65_values hn hs hl
  refine ⟨w', h1, fun v own x Ms hv hb => ?_⟩
  obtain ⟨s, h3, h4⟩ := h2 v x hv
  refine ⟨s, h3, fun t ht hlen => ?_⟩
  obtain ⟨st, g1, g2⟩ := (C47_nolimit_counts hb).2 t ht hlen
  have h5 := C65_alike_counts h4 ht
  rw [g1, Option.map_some, Option.map_eq_some_iff] at h5
  obtain ⟨st', k1, k2⟩ := h5
  exact ⟨st', k1, fun i M hM => by rw [k2]; exact g2 i M hM⟩

/-- When no variable exists any more, nothing is allocated. -/
theorem C65_no_leak {nul : Loaded} (hn : Life.LoadedMeans nul nul) {w : World} (hs : Start nul w) {ops : List Op} (hl : LegalRun nul w ops)
    (hv : ∀ v, values nul ops v = none) : ∃ w', run nul w ops = some w' ∧ (∀ a, w'.arrays.heap a = none) ∧ w'.tables.owned = [] := by
  obtain ⟨w', h1, h2⟩ := (Inv.start hn hs).run hl
  refine ⟨w', h1, fun a => ?_, List.eq_nil_iff_forall_not_mem.2 fun b hb => ?_⟩
  · by_contra hne
    obtain ⟨v, o, h3, -⟩ := h2.arrays.noleak a (Option.isSome_iff_ne_none.2 hne)
    rw [((h2.dom v).2).2 (hv v)] at h3
    cases h3
  · obtain ⟨v, o, h3, -⟩ := h2.tables.noleak b hb
    rw [((h2.dom v).1).2 (hv v)] at h3
    cases h3

/-! ### Assignment, move, Load, Mmap

They are programs themselves; here: after any legal program they are legal, and what they do to the values. -/

section
variable {nul : Loaded} {w w1 : World} {ops : List Op}

theorem count_inv (hn : Life.LoadedMeans nul nul) (hs : Start nul w) (hl : LegalRun nul w ops) (hr : run nul w ops = some w1) : Inv nul w1 (values nul ops) := by
  obtain ⟨w', h1, h2⟩ := (Inv.start hn hs).run hl
  rw [hr] at h1
  cases h1
  exact h2

theorem count_some {τ : Nat → Option NoLimit} (h : Inv nul w1 τ) {v : Nat} (hv : (τ v).isSome) : (w1.tables.vars v).isSome ∧ (w1.arrays.vars v).isSome := by
  rw [Option.isSome_iff_ne_none] at hv
  exact ⟨Option.isSome_iff_ne_none.2 fun e => hv (((h.dom v).1).1 e), Option.isSome_iff_ne_none.2 fun e => hv (((h.dom v).2).1 e)⟩

/-- `Swap` and the destructor of the local variable. -/
theorem count_swap_destroy {τ : Nat → Option NoLimit} (h : Inv nul w1 τ) {t v : Nat} (ht : (τ t).isSome) (hv : (τ v).isSome) (junk : Mem) :
    LegalRun nul w1 [.swap t v, .destroy t junk] := by
  have hl : Legal nul w1 (.swap t v) := ⟨⟨⟨(count_some h ht).1, (count_some h hv).1⟩, fun _ _ => trivial⟩, trivial⟩
  refine ⟨hl, fun w2 h2 => ?_⟩
  obtain ⟨w', g1, g2⟩ := h.step hl
  rw [h2] at g1
  cases g1
  refine ⟨⟨⟨(count_some g2 ?_).1, fun _ _ => trivial⟩, trivial⟩, fun _ _ => trivial⟩
  show (Function.update (Function.update τ t (τ v)) v (τ t) t).isSome = true
  by_cases e : t = v
  · subst e; rw [Function.update_self]; exact ht
  · rw [Function.update_of_ne e, Function.update_self]; exact hv

theorem count_swap_destroy_values {τ : Nat → Option NoLimit} {t v : Nat} {z : Option NoLimit} (hvt : v ≠ t) (junk : Mem) (x : Nat) :
    [Op.swap t v, .destroy t junk].foldl (valueStep nul) (Function.update τ t z) x = if x = v then z else if x = t then none else τ x := by
  show Function.update (Function.update (Function.update (Function.update τ t z) t (Function.update τ t z v)) v (Function.update τ t z t)) t none x = _
  by_cases hx : x = t
  · subst hx
    rw [Function.update_self, if_neg hvt.symm, if_pos rfl]
  · rw [Function.update_of_ne hx]
    by_cases hxv : x = v
    · subst hxv
      rw [Function.update_self, Function.update_self, if_pos rfl]
    · rw [Function.update_of_ne hxv, Function.update_of_ne hx, Function.update_of_ne hx, if_neg hxv, if_neg hx]

/-- One legal operation that sets a new variable `t`, then `Swap` with `v` and the end of `t`. -/
theorem count_through (hn : Life.LoadedMeans nul nul) (hs : Start nul w) (hl : LegalRun nul w ops) (hr : run nul w ops = some w1) {t v : Nat}
    (ht : values nul ops t = none) (hv : (values nul ops v).isSome) {op : Op} (hop : Legal nul w1 op) {z : NoLimit}
    (hz : valueStep nul (values nul ops) op = Function.update (values nul ops) t (some z)) (junk : Mem) :
    LegalRun nul w (ops ++ [op, .swap t v, .destroy t junk]) ∧
      ∀ x, values nul (ops ++ [op, .swap t v, .destroy t junk]) x = if x = v then some z else if x = t then none else values nul ops x := by
  have hvt : v ≠ t := by
    rintro rfl
    rw [ht] at hv
    cases hv
  have h := count_inv hn hs hl hr
  refine ⟨legalRun_append.2 ⟨hl, fun w' hw => ?_⟩, fun x => ?_⟩
  · rw [hr] at hw
    cases hw
    refine ⟨hop, fun w2 h2 => ?_⟩
    obtain ⟨w', g1, g2⟩ := h.step hop
    rw [h2] at g1
    cases g1
    rw [hz] at g2
    exact count_swap_destroy g2 (by rw [Function.update_self]; rfl) (by rw [Function.update_of_ne hvt]; exact hv) junk
  · unfold values
    rw [List.foldl_append, List.foldl_cons]
    show [Op.swap t v, .destroy t junk].foldl (valueStep nul) (valueStep nul (values nul ops) op) x = _
    rw [hz]
    exact count_swap_destroy_values hvt junk x

/-- What a copy needs: fresh memory for the tables and for the actions, if the source owns any. -/
def CopyRoom (nul : Loaded) (w : World) (u a b : Nat) : Prop :=
  (∀ y, w.tables.vars u = some y → y.buffer.isSome → Life.Fresh w.tables a ((Life.loadedKind nul).room y.obj)) ∧
    ∀ o, w.arrays.vars u = some o → o.buffer.isSome → w.arrays.Free b

/-- `v = u`: all other variables keep their values (`t`: the parameter of `operator =`). `v` and `u` may be the same variable. -/
theorem C65_assignment (hn : Life.LoadedMeans nul nul) (hs : Start nul w) (hl : LegalRun nul w ops) (hr : run nul w ops = some w1) {t v u a b : Nat}
    (ht : values nul ops t = none) (hv : (values nul ops v).isSome) {z : NoLimit} (hu : values nul ops u = some z) (hf : CopyRoom nul w1 u a b) (junk : Mem) :
    LegalRun nul w (ops ++ assign t v u a b junk) ∧
      ∀ x, values nul (ops ++ assign t v u a b junk) x = if x = v then some z else if x = t then none else values nul ops x := by
  have h := count_inv hn hs hl hr
  obtain ⟨y, hy⟩ := Option.isSome_iff_exists.1 (count_some h (v := u) (by rw [hu]; rfl)).1
  refine count_through hn hs hl hr ht hv (op := .copy t u a b) ⟨⟨⟨((h.dom t).1).2 ht, y, hy, hf.1 y hy⟩, fun _ _ => trivial⟩, hf.2⟩ ?_ junk
  show Function.update (values nul ops) t (values nul ops u) = _
  rw [hu]

/-- `Mmap`. -/
theorem C65_mmap (hn : Life.LoadedMeans nul nul) (hs : Start nul w) (hl : LegalRun nul w ops) (hr : run nul w ops = some w1) {t v : Nat}
    (ht : values nul ops t = none) (hv : (values nul ops v).isSome) {x val : Loaded} {acts : Option (Nat × List Nat)} {c : Bool}
    (hx : ∃ b ∈ w1.tables.mapped, b.1 ≤ x.letters ∧ x.letters + (x.tags + x.statesCount - x.letters) ≤ b.1 + b.2)
    (hm : Life.LoadedMeans { x with mem := w1.tables.mem } val) (ha : ∀ y, acts = some y → w1.arrays.mapped y.1 = some y.2) (junk : Mem) :
    LegalRun nul w (ops ++ mmapInto t v x val acts c junk) ∧
      ∀ i, values nul (ops ++ mmapInto t v x val acts c junk) i = if i = v then some ⟨val, acts.map (·.2), c⟩ else if i = t then none else values nul ops i :=
  count_through hn hs hl hr ht hv (op := .attach t x val acts c) ⟨⟨⟨(((count_inv hn hs hl hr).dom t).1).2 ht, hx, hm⟩, fun _ _ => trivial⟩, ha⟩ rfl junk

/-- The move constructor: the new variable gets the value, the old one becomes empty. -/
theorem C65_move (hn : Life.LoadedMeans nul nul) (hs : Start nul w) (hl : LegalRun nul w ops) (hr : run nul w ops = some w1) {v u : Nat}
    (hv : values nul ops v = none) (hu : (values nul ops u).isSome) :
    LegalRun nul w (ops ++ moveInto v u) ∧
      ∀ x, values nul (ops ++ moveInto v u) x = if x = u then some ⟨nul, none, false⟩ else if x = v then values nul ops u else values nul ops x := by
  have h := count_inv hn hs hl hr
  have huv : u ≠ v := by
    rintro rfl
    rw [hv] at hu
    cases hu
  have hd : Legal nul w1 (.default v) := ⟨⟨((h.dom v).1).2 hv, fun _ _ => trivial⟩, trivial⟩
  refine ⟨legalRun_append.2 ⟨hl, fun w' hw => ?_⟩, fun x => ?_⟩
  · rw [hr] at hw
    cases hw
    refine ⟨hd, fun w2 h2 => ⟨?_, fun _ _ => trivial⟩⟩
    obtain ⟨w', g1, g2⟩ := h.step hd
    rw [h2] at g1
    cases g1
    refine ⟨⟨⟨(count_some g2 (v := v) ?_).1, (count_some g2 (v := u) ?_).1⟩, fun _ _ => trivial⟩, trivial⟩
    · show (Function.update (values nul ops) v _ v).isSome = true
      rw [Function.update_self]; rfl
    · show (Function.update (values nul ops) v _ u).isSome = true
      rw [Function.update_of_ne huv]; exact hu
  · unfold values
    rw [List.foldl_append]
    show Function.update (Function.update (Function.update (values nul ops) v (some ⟨nul, none, false⟩)) v (Function.update (values nul ops) v (some ⟨nul, none, false⟩) u)) u
      (Function.update (values nul ops) v (some ⟨nul, none, false⟩) v) x = if x = u then _ else if x = v then values nul ops u else values nul ops x
    by_cases hx : x = u
    · subst hx
      rw [Function.update_self, Function.update_self, if_pos rfl]
    · rw [Function.update_of_ne hx, if_neg hx]
      by_cases hxv : x = v
      · subst hxv
        rw [Function.update_self, Function.update_of_ne huv, if_pos rfl]
      · rw [Function.update_of_ne hxv, Function.update_of_ne hxv, if_neg hxv]

/-- `v = std::move(u)`: `v` gets the value, `u` becomes empty (also if `u` and `v` are the same variable: then it loses its value). -/
theorem C65_move_assignment (hn : Life.LoadedMeans nul nul) (hs : Start nul w) (hl : LegalRun nul w ops) (hr : run nul w ops = some w1) {t v u : Nat}
    (ht : values nul ops t = none) (hv : (values nul ops v).isSome) {z : NoLimit} (hu : values nul ops u = some z) (junk : Mem) :
    LegalRun nul w (ops ++ moveAssign t v u junk) ∧
      ∀ x, values nul (ops ++ moveAssign t v u junk) x =
        if x = v then some z else if x = u then some ⟨nul, none, false⟩ else if x = t then none else values nul ops x := by
  have hvt : v ≠ t := by rintro rfl; rw [ht] at hv; cases hv
  have hut : u ≠ t := by rintro rfl; rw [ht] at hu; cases hu
  obtain ⟨l1, e1⟩ := C65_move hn hs hl hr ht (by rw [hu]; rfl)
  have e : ops ++ moveAssign t v u junk = (ops ++ moveInto t u) ++ [.swap t v, .destroy t junk] := by
    unfold moveAssign
    rw [List.append_assoc]
  have ht1 : values nul (ops ++ moveInto t u) t = some z := by rw [e1, if_neg hut.symm, if_pos rfl, hu]
  have hv1 : (values nul (ops ++ moveInto t u) v).isSome := by
    rw [e1]
    by_cases hvu : v = u
    · rw [if_pos hvu]; rfl
    · rw [if_neg hvu, if_neg hvt]; exact hv
  rw [e]
  refine ⟨legalRun_append.2 ⟨l1, fun w2 h2 => ?_⟩, fun x => ?_⟩
  · exact count_swap_destroy (count_inv hn hs l1 h2) (by rw [ht1]; rfl) hv1 junk
  · have h3 : values nul ((ops ++ moveInto t u) ++ [.swap t v, .destroy t junk]) x = [Op.swap t v, .destroy t junk].foldl (valueStep nul) (values nul (ops ++ moveInto t u)) x := by
      unfold values
      rw [List.foldl_append]
    rw [h3, ← Function.update_eq_self t (values nul (ops ++ moveInto t u)), count_swap_destroy_values hvt, ht1, e1]
    by_cases hx : x = v
    · rw [if_pos hx, if_pos hx]
    · rw [if_neg hx, if_neg hx]
      by_cases hxu : x = u
      · rw [if_pos hxu, if_pos hxu, if_neg (by rw [hxu]; exact hut)]
      · rw [if_neg hxu, if_neg hxu]
        by_cases hxt : x = t
        · rw [if_pos hxt, if_pos hxt]
        · rw [if_neg hxt, if_neg hxt, if_neg hxt]

/-- What the tables need before `Load`. -/
theorem count_load_tables (h : Inv nul w1 (values nul ops)) {t v n : Nat} {x val : Loaded} (ht : values nul ops t = none) (hv : (values nul ops v).isSome)
    (hf : Life.Fresh w1.tables x.letters n) (hsz : x.tags + x.statesCount - x.letters ≤ n) (hb : Life.LoadedBuilt x) (hm : Life.LoadedMeans x val) (junk : Mem) :
    Life.LegalRun (Life.loadedKind nul) Life.LoadedBuilt Life.LoadedMeans w1.tables (Life.loadInto t v x n val junk) := by
  have ht1 := ((h.dom t).1).2 ht
  have hv1 := (count_some h hv).1
  refine ⟨⟨ht1, hf, hsz, hb, hm⟩, fun w2 h2 => ?_⟩
  cases h2
  exact swap_destroy (isSome_ne ht1 hv1) hv1 rfl junk

/-- `Load` of what a `NoGlueLimitCountingScanner` saved. -/
theorem C65_load (hn : Life.LoadedMeans nul nul) (hs : Start nul w) (hl : LegalRun nul w ops) (hr : run nul w ops = some w1) {t v n : Nat} {x val : Loaded}
    (ht : values nul ops t = none) {z : NoLimit} (hv : values nul ops v = some z) (hf : Life.Fresh w1.tables x.letters n) (hsz : x.tags + x.statesCount - x.letters ≤ n)
    (hb : Life.LoadedBuilt x) (hm : Life.LoadedMeans x val) {acts : Option (Nat × List Nat)} (ha : w1.arrays.New acts) (junk : Mem) :
    LegalRun nul w (ops ++ [.load t v x n val junk acts]) ∧
      ∀ i, values nul (ops ++ [.load t v x n val junk acts]) i = if i = v then some ⟨val, acts.map (·.2), z.compat⟩ else values nul ops i := by
  have h := count_inv hn hs hl hr
  have hv' : (values nul ops v).isSome := by rw [hv]; rfl
  refine ⟨legalRun_append.2 ⟨hl, fun w' hw => ?_⟩, fun i => ?_⟩
  · rw [hr] at hw
    cases hw
    exact ⟨⟨count_load_tables h ht hv' hf hsz hb hm junk, (count_some h hv').2, ha⟩, fun _ _ => trivial⟩
  · unfold values
    rw [List.foldl_append]
    show Function.update (values nul ops) v ((values nul ops v).map _) i = _
    rw [hv]
    by_cases e : i = v
    · subst e; rw [Function.update_self, if_pos rfl]; rfl
    · rw [Function.update_of_ne e, if_neg e]; rfl

/-- DEFECT: `Load` is not safe against exceptions. If the stream ends within the actions (`LoadPodArray` throws) and the variable owned actions, it is left with the new
tables and with a pointer to its old actions, which have been deleted: whoever uses it reads freed memory. -/
theorem C65_failed_load_dangles (hn : Life.LoadedMeans nul nul) (hs : Start nul w) (hl : LegalRun nul w ops) (hr : run nul w ops = some w1) {t v n : Nat} {x val : Loaded}
    (ht : values nul ops t = none) (hf : Life.Fresh w1.tables x.letters n) (hsz : x.tags + x.statesCount - x.letters ≤ n)
    (hb : Life.LoadedBuilt x) (hm : Life.LoadedMeans x val) {o : Acts} (hv : w1.arrays.vars v = some o) (ho : o.buffer.isSome) {a : Nat} (ha : w1.arrays.Free a) (l : List Nat)
    (junk : Mem) : ∃ w2 s, failedLoad nul w1 t v x n val junk a l = some w2 ∧ (w2.arrays.vars v).isSome ∧ w2.tables.view (Life.loadedKind nul) v = some s ∧
      Loaded.Alike val s ∧ w2.view nul v = none := by
  have h := count_inv hn hs hl hr
  have hv' : (values nul ops v).isSome := by
    rw [Option.isSome_iff_ne_none]
    intro e
    rw [((h.dom v).2).2 e] at hv
    cases hv
  have hvt : v ≠ t := by rintro rfl; rw [ht] at hv'; cases hv'
  obtain ⟨tb, g1, g2⟩ := h.tables.run (Life.loaded_laws nul) (count_load_tables h ht hv' hf hsz hb hm junk)
  rw [load_values (by rw [ht]; rfl) hvt] at g2
  obtain ⟨s, k1, -, k2, -⟩ := (g2.view (v := v)).2 val (by rw [Function.update_self])
  obtain ⟨c, hc⟩ := Option.isSome_iff_exists.1 ho
  obtain ⟨y, -, hy⟩ := h.arrays.held v o hv
  obtain ⟨q1, l', q2, -⟩ := hy.buffer hc
  have hca : c ≠ a := by
    rintro rfl
    rw [ha.1] at q2
    cases q2
  have hm : w1.arrays.mapped c = none := h.arrays.apart c (by rw [q2]; rfl)
  have e1 : CountLife.free (alloc w1.arrays.heap (some (a, l))) o.buffer = some (Function.update (alloc w1.arrays.heap (some (a, l))) c none) := by
    rw [hc]
    refine if_pos ?_
    show (Function.update w1.arrays.heap a _ c).isSome = true
    rw [Function.update_of_ne hca, q2]
    rfl
  refine ⟨⟨tb, { w1.arrays with
    heap := Function.update (alloc w1.arrays.heap (some (a, l))) c none
    vars := Function.update w1.arrays.vars v (some { o with buffer := some a }) }⟩, s, ?_, ?_, k1, k2, ?_⟩
  · unfold failedLoad
    rw [g1, Option.bind_some, hv, Option.bind_some, e1]
    rfl
  · show (Function.update w1.arrays.vars v _ v).isSome = true
    rw [Function.update_self]; rfl
  · unfold World.view
    show (Function.update w1.arrays.vars v _ v).bind _ = none
    rw [Function.update_self, Option.bind_some, k1, Option.bind_some]
    dsimp only
    rw [q1]
    show (Arrays.look _ c).map _ = none
    unfold Arrays.look
    dsimp only
    rw [Function.update_self, hm]
    rfl

/-- DEFECT: if the variable had no actions, it is left with the new tables without their actions, and copying it follows a null pointer. -/
theorem C65_failed_load_breaks_copy {t v n : Nat} {x val : Loaded} {junk : Mem} {a : Nat} {l : List Nat} {w2 : World} (hf : failedLoad nul w1 t v x n val junk a l = some w2)
    {o : Acts} (hv : w1.arrays.vars v = some o) (ho : o.actions = none) (u b c : Nat) : step nul w2 (.copy u v b c) = none := by
  unfold failedLoad at hf
  rw [Option.bind_eq_some_iff] at hf
  obtain ⟨tb, -, hf⟩ := hf
  rw [hv, Option.bind_some, Option.map_eq_some_iff] at hf
  obtain ⟨h', -, rfl⟩ := hf
  unfold CountLife.step
  rw [Option.bind_eq_none_iff]
  intro tb' _
  rw [Option.map_eq_none_iff]
  show (Function.update w1.arrays.vars v _ v).bind _ = none
  rw [Function.update_self, Option.bind_some]
  dsimp only
  rw [ho]
  rfl

end

/-! ### The hypotheses are met -/

/-- The actions of a scanner, however it was assembled, are such as `LegalRun` wants them: the first number is the length. -/
theorem C65_built_actions {own : Bool} {s : NoLimit} {Ms : List Machine} (h : BuiltNoLimit own s Ms) {w : Arrays} {a : Nat} (hw : w.Free a) :
    w.New (s.actions.map fun l => (a, l)) := by
  obtain ⟨T, D, b, -, -, ⟨h1, -⟩, -⟩ := facts_of_built_nl h
  cases hl : s.actions with
  | none => trivial
  | some l =>
    obtain ⟨g1, -, g2⟩ := h1 l hl
    refine ⟨hw, ?_⟩
    cases l with
    | nil => simp at g2
    | cons c l => rw [← g1]; rfl

/-- A program: `NoGlueLimitCountingScanner a; NoGlueLimitCountingScanner b = ...; NoGlueLimitCountingScanner c = b; a = b;` then `b` dies. -/
def countProgram (s : Loaded) (S : Nat) (val : Loaded) (acts : Option (List Nat)) : List Op :=
  [.default 0, .make 1 s S val (acts.map fun l => (10, l)), .copy 2 1 (2 ^ 45) 11] ++ assign 9 0 1 (2 ^ 46) 12 (fun _ => 77) ++ [.destroy 1 fun _ => 99]

/-- Legality of tables and of actions may be shown one after the other. -/
def ArrLegal : Arrays → List Op → Prop
  | _, [] => True
  | w, op :: ops => w.Legal op ∧ ∀ w', w.step op = some w' → ArrLegal w' ops

theorem legalRun_of {nul : Loaded} {w : World} {ops : List Op}
    (h1 : Life.LegalRun (Life.loadedKind nul) Life.LoadedBuilt Life.LoadedMeans w.tables (ops.flatMap Op.tables)) (h2 : ArrLegal w.arrays ops) : LegalRun nul w ops := by
  induction ops generalizing w with
  | nil => trivial
  | cons op ops ih =>
    rw [List.flatMap_cons, Life.legalRun_append] at h1
    refine ⟨⟨h1.1, h2.1⟩, fun w' hw => ?_⟩
    unfold CountLife.step at hw
    rw [Option.bind_eq_some_iff] at hw
    obtain ⟨t, g1, hw⟩ := hw
    rw [Option.map_eq_some_iff] at hw
    obtain ⟨a, g2, rfl⟩ := hw
    exact ih (h1.2 t g1) (h2.2 a g2)

/-- The beginning, as far as actions are concerned. -/
def noArrays : Arrays := ⟨fun _ => none, fun _ => none, fun _ => none⟩

theorem countProgram_arrays {s : Loaded} {S : Nat} {val : Loaded} {acts : Option (List Nat)} (ha : ∀ l, acts = some l → l.head? = some l.length) :
    ArrLegal noArrays (countProgram s S val acts) := by
  refine ⟨trivial, fun w1 h1 => ?_⟩
  cases h1
  cases acts with
  | none =>
    refine ⟨trivial, fun w1 h1 => ?_⟩
    cases h1
    refine ⟨fun o ho hb => (by cases ho; cases hb), fun w1 h1 => ?_⟩
    cases h1
    refine ⟨fun o ho hb => (by cases ho; cases hb), fun w1 h1 => ?_⟩
    exact ⟨trivial, fun _ _ => ⟨trivial, fun _ _ => ⟨trivial, fun _ _ => trivial⟩⟩⟩
  | some l =>
    have hl := ha l rfl
    refine ⟨⟨⟨rfl, rfl⟩, hl⟩, fun w1 h1 => ?_⟩
    cases h1
    refine ⟨fun o ho hb => ⟨rfl, rfl⟩, fun w1 h1 => ?_⟩
    have e : w1.heap 12 = none ∧ w1.mapped 12 = none := by
      change (l.head?.bind _ : Option Arrays) = some w1 at h1
      rw [hl, Option.bind_some] at h1
      change (if l.length ≤ l.length then _ else none : Option Arrays) = some w1 at h1
      rw [if_pos (Nat.le_refl _)] at h1
      cases h1
      exact ⟨rfl, rfl⟩
    refine ⟨fun o ho hb => e, fun w1 h1 => ?_⟩
    exact ⟨trivial, fun _ _ => ⟨trivial, fun _ _ => ⟨trivial, fun _ _ => trivial⟩⟩⟩

/-- The hypotheses of `C65_values` are met: the program above with the tables that count the longest series of `a`, with any actions. After it `a` and `c` are as `b` was,
and `b` is gone. -/
theorem C65_program (acts : Option (List Nat)) (ha : ∀ l, acts = some l → l.head? = some l.length) : ∃ (nul s : Loaded) (w w' : World) (S : Nat),
    Life.LoadedMeans nul nul ∧ Start nul w ∧ LegalRun nul w (countProgram s S (series id 97) acts) ∧ run nul w (countProgram s S (series id 97) acts) = some w' ∧
    w'.view nul 1 = none ∧ (∃ a, w'.view nul 0 = some a ∧ Alike ⟨series id 97, acts, false⟩ a) ∧ ∃ c, w'.view nul 2 = some c ∧ Alike ⟨series id 97, acts, false⟩ c := by
  obtain ⟨nul, s, w, hN, hs, hl, -⟩ := series_program id
  have hs' : Start nul ⟨w, noArrays⟩ := ⟨hs, fun _ => rfl, fun _ => rfl, fun _ => rfl⟩
  have hl' : LegalRun nul ⟨w, noArrays⟩ (countProgram s (Loaded.bufSize s.statesCount s.lettersCount) (series id 97) acts) :=
    legalRun_of hl (countProgram_arrays ha)
  obtain ⟨w', g1, g2, g3, -⟩ := C65_values hN hs' hl'
  have e : (Option.map (·.2) (acts.map fun l => ((10 : Nat), l))) = acts := by rw [Option.map_map]; exact Option.map_id'
  refine ⟨nul, s, _, w', _, hN, hs', hl', g1, (g2 1).1 rfl, ?_, ?_⟩
  · have := g3 0 _ rfl
    rw [e] at this
    exact this
  · have := g3 2 _ rfl
    rw [e] at this
    exact this

/-- In particular the scanner itself (which has no actions of its own): after the program `a` counts as it. -/
example : ∃ (nul : Loaded) (w' : World) (s : NoLimit), w'.view nul 0 = some s ∧ ∀ t, IsWord t → 2 * t.length < 2 ^ 32 →
    ∃ st, (scnNoLimit s).after (scnNoLimit s).initial t = some st ∧ MaxRun (((seriesOf 97).outs (seriesOf 97).q0 t).flatMap advancedOps) (st.result 0) := by
  obtain ⟨nul, s, w, w', S, hN, hs, hl, -⟩ := C65_program none (fun _ h => by cases h)
  obtain ⟨w', -, h2⟩ := C65_counts hN hs hl
  have hb : BuiltNoLimit true ⟨series id 97, none, false⟩ [seriesOf 97] := by
    have := BuiltNoLimit.made (series_fillable 97).1
    have e : series id 97 = fillTable id 0 (seriesOf 97).n (seriesOf 97).q0 (seriesLetters 97) (seriesOf 97).step (seriesOf 97).out := by unfold series; rfl
    rw [e]
    exact this
  obtain ⟨s, h3, h4⟩ := h2 0 _ _ _ rfl hb
  exact ⟨nul, w', s, h3, fun t ht hlen => by
    obtain ⟨st, k1, k2⟩ := h4 t ht hlen
    exact ⟨st, k1, k2 0 _ rfl⟩⟩

/-- The hypotheses of `C65_load` and of `C65_failed_load_dangles` are met: a variable with actions of its own loads another scanner, or fails to. -/
example (l : List Nat) (hl : l.head? = some l.length) : ∃ (nul s x : Loaded) (w w1 : World) (S : Nat),
    (LegalRun nul w [.default 0, .make 1 s S (series id 97) (some (10, l))] ∧ run nul w [.default 0, .make 1 s S (series id 97) (some (10, l))] = some w1) ∧
    (∃ w2 z, run nul w1 [.load 5 1 x 1000 (series id 97) (fun _ => 0) (some (11, l))] = some w2 ∧ w2.view nul 1 = some z ∧ Alike ⟨series id 97, some l, false⟩ z) ∧
    ∃ w2, failedLoad nul w1 5 1 x 1000 (series id 97) (fun _ => 0) 11 l = some w2 ∧ w2.view nul 1 = none := by
  obtain ⟨nul, s, w, hN, hs, hlr, e1, e2, e3, x, x1, x2, x3, x4⟩ := series_program id
  have hs' : Start nul ⟨w, noArrays⟩ := ⟨hs, fun _ => rfl, fun _ => rfl, fun _ => rfl⟩
  have hall : LegalRun nul ⟨w, noArrays⟩ (countProgram s (Loaded.bufSize s.statesCount s.lettersCount) (series id 97) (some l)) :=
    legalRun_of hlr (countProgram_arrays fun l' h => by cases h; exact hl)
  have hp : LegalRun nul ⟨w, noArrays⟩ [.default 0, .make 1 s (Loaded.bufSize s.statesCount s.lettersCount) (series id 97) (some (10, l))] :=
    (legalRun_append (ops := [.default 0, .make 1 s _ (series id 97) (some (10, l))])).1 hall |>.1
  obtain ⟨w1, hr, -⟩ := C65_values hN hs' hp
  have hw1 : w1.tables.blocks = (2 ^ 44, Loaded.bufSize s.statesCount s.lettersCount) :: w.blocks ∧ w1.arrays.vars 1 = some ⟨some 10, some 10, false⟩ ∧ w1.arrays.Free 11 := by
    cases hr
    refine ⟨?_, rfl, rfl, rfl⟩
    rw [← e1]
    rfl
  obtain ⟨b1, b2, b3⟩ := hw1
  have hf : Life.Fresh w1.tables x.letters 1000 := by
    rw [x1]
    refine ⟨by norm_num, by norm_num, by norm_num, by norm_num, fun b hb => ?_⟩
    rw [b1, e2] at hb
    simp only [List.mem_cons, List.not_mem_nil, or_false] at hb
    unfold Life.Disjoint
    rcases hb with rfl | rfl <;> dsimp only <;> omega
  obtain ⟨l1, v1⟩ := C65_load hN hs' hp hr (t := 5) (v := 1) (z := ⟨series id 97, some l, false⟩) rfl rfl hf x2 x3 x4 (acts := some (11, l)) ⟨b3, hl⟩ fun _ => 0
  obtain ⟨w2, g1, -, g2, -⟩ := C65_values hN hs' l1
  rw [run_append, hr, Option.bind_some] at g1
  obtain ⟨z, g3, g4⟩ := g2 1 _ (by rw [v1, if_pos rfl])
  obtain ⟨w3, -, k1, -, -, -, k2⟩ := C65_failed_load_dangles hN hs' hp hr (t := 5) (v := 1) rfl hf x2 x3 x4 b2 rfl b3 l fun _ => 0
  exact ⟨nul, s, x, _, w1, _, ⟨hp, hr⟩, ⟨w2, z, g1, g3, g4⟩, w3, k1, k2⟩

end Props
end Pire
