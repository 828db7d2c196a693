import Verif.Spec.SlowLifetime

/-!
# Proofs about slow scanner variables
-/

namespace Pire
namespace SlowLife
open Capture

/-- Operations on what is seen. -/
def valueStep (σ : Nat → Option SlowCap) : Op → Nat → Option SlowCap
  | .default v n => Function.update σ v (some { SlowCap.default with needActions := n })
  | .make v x _ _ => Function.update σ v (some x)
  | .attach v x _ _ _ _ _ => Function.update σ v (some x)
  | .copy v u _ _ => Function.update σ v ((σ u).map SlowCap.copyCtor)
  | .swap v u => Function.update (Function.update σ v (σ u)) u (σ v)
  | .destroy v => Function.update σ v none
  | .map _ _ => σ
  | .unmap _ => σ

variable {w w' : World} {σ : Nat → Option SlowCap} {o : Obj} {v u : Nat}

/-- What is known about the static scanner. -/
structure StaticOk (w : World) : Prop where
  letters : w.heap w.static.letters = some (.nums Slow.null.letters)
  finals : w.heap w.static.finals = some (.bools Slow.null.finals)
  vec : w.static.vec = Slow.null.vec
  vecptr : w.static.vecptr = .static
  jumps : w.static.jumps = none
  jumpPos : w.static.jumpPos = none
  actions : w.static.actions = none
  counts : w.static.statesCount = Slow.null.statesCount ∧ w.static.lettersCount = Slow.null.lettersCount ∧ w.static.start = Slow.null.start

/-- Objects own their tables or refer to those of others. -/
inductive ObjOk (w : World) (v : Nat) (o : Obj) : Prop
  | owner (ptr : o.vecptr = .own v) (vec : o.vec ≠ []) (pool : o.pool = [o.letters, o.finals]) (ne : o.letters ≠ o.finals) (jumps : o.jumps = none)
      (jumpPos : o.jumpPos = none) (actions : o.actions = none) (hl : ∃ l, w.heap o.letters = some (.nums l) ∧ l.length = MaxChar)
      (hf : ∃ l, w.heap o.finals = some (.bools l) ∧ l.length = o.statesCount)
  | guest (vec : o.vec = []) (pool : o.pool = []) (ptr : (o.vecptr = .static ∧ o.jumpPos = none ∧ o.jumps = none) ∨ o.vecptr = .null)
      (refs : ∀ a ∈ o.refs, a = w.static.letters ∨ a = w.static.finals ∨ (w.mapped a).isSome)

/-- The invariant. -/
structure Inv (w : World) (σ : Nat → Option SlowCap) : Prop where
  view : ∀ v, w.view v = σ v
  valued : ∀ v, (w.vars v).isSome → (σ v).isSome
  obj : ∀ v o, w.vars v = some o → ObjOk w v o
  apart : ∀ v u o p a, w.vars v = some o → w.vars u = some p → a ∈ o.pool → a ∈ p.pool → v = u
  away : ∀ v o a, w.vars v = some o → a ∈ o.pool → a ≠ w.static.letters ∧ a ≠ w.static.finals
  noleak : ∀ a, (w.heap a).isSome → a = w.static.letters ∨ a = w.static.finals ∨ ∃ v o, w.vars v = some o ∧ a ∈ o.pool
  disj : ∀ a, (w.heap a).isSome → w.mapped a = none
  static : StaticOk w

theorem mem_refs {a : Nat} : a ∈ o.refs ↔ a = o.finals ∨ a = o.letters ∨ o.jumps = some a ∨ o.jumpPos = some a ∨ o.actions = some a := by
  unfold Obj.refs
  simp only [List.mem_append, List.mem_cons, List.not_mem_nil, Option.mem_toList, Option.mem_def, or_false]
  tauto

theorem owner_refs (hj : o.jumps = none) (hp : o.jumpPos = none) (ha : o.actions = none) {a : Nat} : a ∈ o.refs ↔ a = o.finals ∨ a = o.letters := by
  rw [mem_refs, hj, hp, ha]
  simp

theorem ObjOk.used (h : ObjOk w v o) (hs : StaticOk w) {a : Nat} (ha : a ∈ o.refs) : ¬ w.Free a := by
  rintro ⟨h1, h2⟩
  cases h with
  | owner ptr vec pool ne jumps jumpPos actions hl hf =>
    obtain ⟨l, e1, -⟩ := hl
    obtain ⟨f, e2, -⟩ := hf
    rcases (owner_refs jumps jumpPos actions).1 ha with rfl | rfl
    · rw [h1] at e2; cases e2
    · rw [h1] at e1; cases e1
  | guest vec pool ptr refs =>
    rcases refs a ha with rfl | rfl | hx
    · rw [hs.letters] at h1; cases h1
    · rw [hs.finals] at h1; cases h1
    · rw [h2] at hx; cases hx

theorem ObjOk.pool_heap (h : ObjOk w v o) {a : Nat} (ha : a ∈ o.pool) : (w.heap a).isSome := by
  cases h with
  | owner ptr vec pool ne jumps jumpPos actions hl hf =>
    obtain ⟨l, e1, -⟩ := hl
    obtain ⟨f, e2, -⟩ := hf
    rw [pool] at ha
    simp only [List.mem_cons, List.not_mem_nil, or_false] at ha
    rcases ha with rfl | rfl
    · rw [e1]; rfl
    · rw [e2]; rfl
  | guest vec pool ptr refs => rw [pool] at ha; cases ha

theorem ObjOk.keep (h : ObjOk w v o) (hst : w'.static = w.static) (hr : ∀ a ∈ o.refs, w'.heap a = w.heap a ∧ w'.mapped a = w.mapped a) : ObjOk w' v o := by
  cases h with
  | owner ptr vec pool ne jumps jumpPos actions hl hf =>
    refine .owner ptr vec pool ne jumps jumpPos actions ?_ ?_
    · rw [(hr _ (mem_refs.2 (.inr (.inl rfl)))).1]; exact hl
    · rw [(hr _ (mem_refs.2 (.inl rfl))).1]; exact hf
  | guest vec pool ptr refs =>
    refine .guest vec pool ptr fun a ha => ?_
    rw [hst, (hr a ha).2]
    exact refs a ha

theorem look_eq {a : Nat} (h : w'.heap a = w.heap a ∧ w'.mapped a = w.mapped a) : w'.look a = w.look a := by
  unfold World.look
  rw [h.1, h.2]

theorem nums_eq {a : Nat} (h : w'.look a = w.look a) : w'.nums a = w.nums a := by unfold World.nums; rw [h]
theorem bools_eq {a : Nat} (h : w'.look a = w.look a) : w'.bools a = w.bools a := by unfold World.bools; rw [h]

/-- Two objects that differ in `m_vecptr` and `m_pool` only. -/
theorem viewObj_eq (hst : w'.static.finals = w.static.finals) {p : VecPtr} {q : List Nat} (hr : ∀ a ∈ o.refs, w'.look a = w.look a)
    (hj : w'.jumpsOf { o with vecptr := p, pool := q } = w.jumpsOf o) : w'.viewObj { o with vecptr := p, pool := q } = w.viewObj o := by
  unfold World.viewObj
  dsimp only
  rw [hj, hst, bools_eq (hr _ (mem_refs.2 (.inl rfl))), nums_eq (hr _ (mem_refs.2 (.inr (.inl rfl))))]
  cases ha : o.actions with
  | none => rfl
  | some a =>
    dsimp only
    rw [nums_eq (hr a (mem_refs.2 (.inr (.inr (.inr (.inr ha))))))]

theorem jumpsOf_guest (hst : w'.static = w.static) (hp : ∀ u, o.vecptr ≠ .own u) (hr : ∀ a ∈ o.refs, w'.look a = w.look a) : w'.jumpsOf o = w.jumpsOf o := by
  unfold World.jumpsOf
  cases hv : o.vecptr with
  | own u => exact absurd hv (hp u)
  | static => dsimp only; rw [hst]
  | null =>
    dsimp only
    cases h1 : o.jumpPos with
    | none => cases o.jumps <;> rfl
    | some p =>
      cases h2 : o.jumps with
      | none => rfl
      | some j =>
        dsimp only
        rw [nums_eq (hr p (mem_refs.2 (.inr (.inr (.inr (.inl h1)))))), nums_eq (hr j (mem_refs.2 (.inr (.inr (.inl h2)))))]

/-- A variable that is not touched keeps its meaning. -/
theorem ObjOk.view_eq (h : ObjOk w v o) (hst : w'.static = w.static) (hr : ∀ a ∈ o.refs, w'.heap a = w.heap a ∧ w'.mapped a = w.mapped a)
    (hv : w.vars v = some o) (hv' : w'.vars v = some o) : w'.viewObj o = w.viewObj o := by
  have hr' : ∀ a ∈ o.refs, w'.look a = w.look a := fun a ha => look_eq (hr a ha)
  refine viewObj_eq (p := o.vecptr) (q := o.pool) (by rw [hst]) hr' ?_
  cases h with
  | owner ptr vec pool ne jumps jumpPos actions hl hf =>
    show w'.jumpsOf o = w.jumpsOf o
    unfold World.jumpsOf
    rw [ptr]
    dsimp only
    rw [hv, hv']
  | guest vec pool ptr refs =>
    refine jumpsOf_guest hst (fun u hu => ?_) hr'
    rw [hu] at ptr
    rcases ptr with ⟨h1, -⟩ | h1 <;> cases h1

theorem view_some (hv : w.vars v = some o) : w.view v = w.viewObj o := by
  unfold World.view
  rw [hv]
  rfl

theorem view_none (hv : w.vars v = none) : w.view v = none := by
  unfold World.view
  rw [hv]
  rfl

/-- What the object of a variable that owns its tables means. -/
theorem owner_view (hv : w.vars v = some o) (ptr : o.vecptr = .own v) (ha : o.actions = none) {l : List Nat} {f : List Bool} (hl : w.heap o.letters = some (.nums l))
    (hf : w.heap o.finals = some (.bools f)) : w.viewObj o = some
      { base := { statesCount := o.statesCount, lettersCount := o.lettersCount, start := o.start, finals := f, letters := l, vec := o.vec,
                  jumps := .vecs o.vec, empty := o.finals == w.static.finals }
        needActions := o.needActions, actionsVec := o.actionsVec, actions := none } := by
  unfold World.viewObj World.bools World.nums World.look World.jumpsOf
  rw [hl, hf, ptr, ha]
  dsimp only [Option.or]
  rw [hv]
  rfl

/-- Adding a variable. -/
theorem Inv.add (h : Inv w σ) (hn : w.vars v = none) (hst : w'.static = w.static) (hh : ∀ a, (w.heap a).isSome → w'.heap a = w.heap a)
    (hm : w'.mapped = w.mapped) (hvars : w'.vars = Function.update w.vars v (some o)) (ok : ObjOk w' v o) {x : SlowCap} (hx : w'.viewObj o = some x)
    (hp : ∀ a ∈ o.pool, w.heap a = none) (hnew : ∀ a, (w'.heap a).isSome → (w.heap a).isSome ∨ a ∈ o.pool)
    (hd : ∀ a ∈ o.pool, w.mapped a = none) : Inv w' (Function.update σ v (some x)) := by
  have same : ∀ u, u ≠ v → w'.vars u = w.vars u := fun u hu => by rw [hvars, Function.update_of_ne hu]
  have self : w'.vars v = some o := by rw [hvars, Function.update_self]
  have keep : ∀ u p, w.vars u = some p → ∀ a ∈ p.refs, w'.heap a = w.heap a ∧ w'.mapped a = w.mapped a := by
    intro u p hu a ha
    refine ⟨?_, by rw [hm]⟩
    have hused := (h.obj u p hu).used h.static ha
    cases hha : w.heap a with
    | some y => rw [hh a (by rw [hha]; rfl)]; exact hha
    | none =>
      cases hha' : w'.heap a with
      | none => rfl
      | some y =>
        exfalso
        rcases hnew a (by rw [hha']; rfl) with h1 | h1
        · rw [hha] at h1; cases h1
        · exact hused ⟨hha, hd a h1⟩
  have old : ∀ u p, u ≠ v → w'.vars u = some p → w.vars u = some p := fun u p hu hp => by rw [← same u hu]; exact hp
  refine ⟨fun u => ?_, fun u hu => ?_, fun u p hu => ?_, fun a b p q c ha hb hc1 hc2 => ?_, fun u p a hu ha => ?_, fun a ha => ?_, fun a ha => ?_, ?_⟩
  · by_cases huv : u = v
    · subst huv
      rw [view_some self, hx, Function.update_self]
    · rw [Function.update_of_ne huv, ← h.view u]
      cases hu : w.vars u with
      | none => rw [view_none hu, view_none (by rw [same u huv]; exact hu)]
      | some p =>
        rw [view_some hu, view_some (by rw [same u huv]; exact hu)]
        exact (h.obj u p hu).view_eq hst (keep u p hu) hu (by rw [same u huv]; exact hu)
  · by_cases huv : u = v
    · subst huv
      rw [Function.update_self]
      rfl
    · rw [Function.update_of_ne huv]
      rw [same u huv] at hu
      exact h.valued u hu
  · by_cases huv : u = v
    · subst huv
      rw [self] at hu
      cases hu
      exact ok
    · have hu' := old u p huv hu
      exact (h.obj u p hu').keep hst (keep u p hu')
  · by_cases hav : a = v <;> by_cases hbv : b = v
    · rw [hav, hbv]
    · exfalso
      subst hav
      rw [self] at ha
      cases ha
      have := (h.obj b q (old b q hbv hb)).pool_heap hc2
      rw [hp c hc1] at this
      cases this
    · exfalso
      subst hbv
      rw [self] at hb
      cases hb
      have := (h.obj a p (old a p hav ha)).pool_heap hc1
      rw [hp c hc2] at this
      cases this
    · exact h.apart a b p q c (old a p hav ha) (old b q hbv hb) hc1 hc2
  · rw [hst]
    by_cases huv : u = v
    · subst huv
      rw [self] at hu
      cases hu
      have h0 := hp a ha
      constructor
      · rintro rfl; rw [h.static.letters] at h0; cases h0
      · rintro rfl; rw [h.static.finals] at h0; cases h0
    · exact h.away u p a (old u p huv hu) ha
  · rw [hst]
    rcases hnew a ha with h1 | h1
    · rcases h.noleak a h1 with e | e | ⟨u, p, hu, hp'⟩
      · exact .inl e
      · exact .inr (.inl e)
      · have huv : u ≠ v := by rintro rfl; rw [hn] at hu; cases hu
        exact .inr (.inr ⟨u, p, by rw [same u huv]; exact hu, hp'⟩)
    · exact .inr (.inr ⟨v, o, self, h1⟩)
  · rw [hm]
    rcases hnew a ha with h1 | h1
    · exact h.disj a h1
    · exact hd a h1
  · obtain ⟨s1, s2, s3, s4, s5, s6, s7, s8⟩ := h.static
    refine ⟨?_, ?_, ?_, ?_, ?_, ?_, ?_, ?_⟩ <;> rw [hst]
    · rw [hh _ (by rw [s1]; rfl)]; exact s1
    · rw [hh _ (by rw [s2]; rfl)]; exact s2
    all_goals assumption

theorem StaticOk.vars (h : StaticOk w) {f : Nat → Option Obj} : StaticOk { w with vars := f } :=
  ⟨h.letters, h.finals, h.vec, h.vecptr, h.jumps, h.jumpPos, h.actions, h.counts⟩

theorem null_jumps : Slow.null.jumps = .vecs Slow.null.vec := rfl

theorem default_view (hs : StaticOk w) (n : Bool) : w.viewObj (aliasOf w.static n) = some { SlowCap.default with needActions := n } := by
  have hj : w.jumpsOf (aliasOf w.static n) = some (.vecs Slow.null.vec) := by
    unfold World.jumpsOf aliasOf
    dsimp only
    rw [hs.vecptr, ← hs.vec]
  unfold World.viewObj World.bools World.nums World.look
  rw [hj]
  unfold aliasOf
  dsimp only
  rw [hs.letters, hs.finals, hs.actions, hs.counts.1, hs.counts.2.1, hs.counts.2.2]
  simp only [Option.some_or, Option.bind_some, Option.map_some, beq_self_eq_true]
  rfl

theorem Inv.default (h : Inv w σ) (hn : w.vars v = none) (n : Bool) :
    ∃ w', step w (.default v n) = some w' ∧ Inv w' (valueStep σ (.default v n)) := by
  refine ⟨_, rfl, ?_⟩
  refine h.add hn (by rfl) (by exact fun _ _ => rfl) (by rfl) (by rfl) ?_ (by exact default_view h.static.vars n) ?_ (by exact fun a ha => .inl ha) ?_
  · refine .guest rfl rfl (.inl ⟨h.static.vecptr, h.static.jumpPos, h.static.jumps⟩) fun a ha => ?_
    · have ha' : a ∈ w.static.refs := ha
      rcases (owner_refs h.static.jumps h.static.jumpPos h.static.actions).1 ha' with rfl | rfl
      · exact .inr (.inl rfl)
      · exact .inl rfl
  · intro a ha; cases ha
  · intro a ha; cases ha

/-- Two new arrays. -/
theorem two_new {heap : Nat → Option Arr} {a b : Nat} {x y : Arr} (ha : heap a = none) (hb : heap b = none) (hab : a ≠ b) :
    (∀ c, (heap c).isSome → Function.update (Function.update heap a (some x)) b (some y) c = heap c) ∧
    Function.update (Function.update heap a (some x)) b (some y) a = some x ∧ Function.update (Function.update heap a (some x)) b (some y) b = some y ∧
    ∀ c, (Function.update (Function.update heap a (some x)) b (some y) c).isSome → (heap c).isSome ∨ c ∈ [a, b] := by
  refine ⟨fun c hc => ?_, ?_, ?_, fun c hc => ?_⟩
  · have h1 : c ≠ a := by rintro rfl; rw [ha] at hc; cases hc
    have h2 : c ≠ b := by rintro rfl; rw [hb] at hc; cases hc
    rw [Function.update_of_ne h2, Function.update_of_ne h1]
  · rw [Function.update_of_ne hab, Function.update_self]
  · rw [Function.update_self]
  · by_cases h1 : c = a
    · right; simp [h1]
    by_cases h2 : c = b
    · right; simp [h2]
    · rw [Function.update_of_ne h2, Function.update_of_ne h1] at hc
      exact .inl hc

theorem Inv.make (h : Inv w σ) {x : SlowCap} {a b : Nat} (hn : w.vars v = none) (ha : w.Free a) (hb : w.Free b) (hab : a ≠ b) (hx : Built x) :
    ∃ w', step w (.make v x a b) = some w' ∧ Inv w' (valueStep σ (.make v x a b)) := by
  obtain ⟨n1, n2, n3, n4⟩ := two_new (x := .nums x.base.letters) (y := .bools x.base.finals) ha.1 hb.1 hab
  have hbf : b ≠ w.static.finals := by
    rintro rfl
    have := h.static.finals
    rw [hb.1] at this
    cases this
  refine ⟨_, rfl, ?_⟩
  refine h.add hn (by rfl) (by exact n1) (by rfl) (by rfl) ?_ ?_ ?_ (by exact n4) ?_
  · exact .owner rfl hx.filled rfl hab rfl rfl rfl ⟨_, n2, hx.letters⟩ ⟨_, n3, hx.finals⟩
  · rw [owner_view (by exact Function.update_self ..) rfl rfl n2 n3]
    obtain ⟨⟨b1, b2, b3, b4, b5, b6, b7, b8⟩, x2, x3, x4⟩ := x
    have e1 := hx.jumps
    have e2 := hx.nonempty
    have e3 := hx.actions
    dsimp only at e1 e2 e3 ⊢
    rw [e1, e2, e3, beq_false_of_ne hbf]
  · intro c hc
    simp only [List.mem_cons, List.not_mem_nil, or_false] at hc
    rcases hc with rfl | rfl
    · exact ha.1
    · exact hb.1
  · intro c hc
    simp only [List.mem_cons, List.not_mem_nil, or_false] at hc
    rcases hc with rfl | rfl
    · exact ha.2
    · exact hb.2

theorem Inv.attach (h : Inv w σ) {x : SlowCap} {l f p j : Nat} {a : Option Nat} (hn : w.vars v = none) (hx : Mapped w x l f p j a) :
    ∃ w', step w (.attach v x l f p j a) = some w' ∧ Inv w' (valueStep σ (.attach v x l f p j a)) := by
  obtain ⟨ps, js, ej, ep, ejs⟩ := hx.jumps
  have free : ∀ c y, w.mapped c = some y → w.heap c = none := by
    intro c y hc
    cases hh : w.heap c with
    | none => rfl
    | some z =>
      have := h.disj c (by rw [hh]; rfl)
      rw [hc] at this
      cases this
  have look : ∀ c y, w.mapped c = some y → w.look c = some y := by
    intro c y hc
    unfold World.look
    rw [free c y hc, hc]
    rfl
  have hff : f ≠ w.static.finals := by
    rintro rfl
    have := free _ _ hx.finals
    rw [h.static.finals] at this
    cases this
  have hact := hx.actions
  refine ⟨_, rfl, ?_⟩
  refine h.add hn (by rfl) (by exact fun _ _ => rfl) (by rfl) (by rfl) ?_ ?_ ?_ (by exact fun c hc => .inl hc) ?_
  · refine .guest rfl rfl (.inr rfl) fun c hc => .inr (.inr ?_)
    show (w.mapped c).isSome
    rcases mem_refs.1 hc with e | e | e | e | e
    · rw [e]; dsimp only; rw [hx.finals]; rfl
    · rw [e]; dsimp only; rw [hx.letters]; rfl
    · cases e; rw [ejs]; rfl
    · cases e; rw [ep]; rfl
    · have e : a = some c := e
      subst e
      split at hact
      · rename_i e2; cases e2
      · rename_i e1 e2; cases e2; rw [hact]; rfl
      · exact hact.elim
  · obtain ⟨⟨b1, b2, b3, b4, b5, b6, b7, b8⟩, x2, x3, x4⟩ := x
    have e1 := hx.vec
    have e2 := hx.nonempty
    have e3 := hx.actionsVec
    have e4 := hx.letters
    have e5 := hx.finals
    dsimp only at e1 e2 e3 e4 e5 ej hact
    unfold World.viewObj World.bools World.nums World.jumpsOf World.look
    dsimp only
    unfold World.nums World.look
    dsimp only
    rw [free _ _ e4, free _ _ e5, free _ _ ep, free _ _ ejs, e4, e5, ep, ejs, beq_false_of_ne hff, e1, e2, e3, ej]
    dsimp only [Option.or, Option.bind_some, Option.map_some]
    cases x4 with
    | none =>
      cases a with
      | none => rfl
      | some c => exact hact.elim
    | some as =>
      cases a with
      | none => exact hact.elim
      | some c =>
        have hc : w.mapped c = some (.nums as) := hact
        dsimp only
        rw [free _ _ hc, hc]
        rfl
  · intro c hc; cases hc
  · intro c hc; cases hc

theorem Inv.copy (h : Inv w σ) {a b : Nat} (hn : w.vars v = none) (hu : w.vars u = some o) (hf : o.vec ≠ [] → w.Free a ∧ w.Free b ∧ a ≠ b) :
    ∃ w', step w (.copy v u a b) = some w' ∧ Inv w' (valueStep σ (.copy v u a b)) := by
  have ok := h.obj u o hu
  have hval := h.view u
  rw [view_some hu] at hval
  have huv : u ≠ v := by rintro rfl; rw [hn] at hu; cases hu
  show ∃ w', (w.vars u).bind _ = some w' ∧ Inv w' (Function.update σ v ((σ u).map SlowCap.copyCtor))
  rw [hu, Option.bind_some]
  cases ok with
  | owner ptr vec pool ne jumps jumpPos actions hl hfin =>
    obtain ⟨fa, fb, hab⟩ := hf vec
    obtain ⟨l, e1, l1⟩ := hl
    obtain ⟨f, e2, l2⟩ := hfin
    rw [owner_view hu ptr actions e1 e2] at hval
    obtain ⟨n1, n2, n3, n4⟩ := two_new (x := .nums l) (y := .bools f) fa.1 fb.1 hab
    have hbf : b ≠ w.static.finals := by
      rintro rfl
      have := h.static.finals
      rw [fb.1] at this
      cases this
    have g1 : w.nums o.letters = some l := by unfold World.nums World.look; rw [e1]; rfl
    have g2 : w.bools o.finals = some f := by unfold World.bools World.look; rw [e2]; rfl
    rw [if_neg vec, g1, g2, Option.bind_some, Option.bind_some, if_pos ⟨l1.ge, l2.ge⟩, List.take_of_length_le l1.le, List.take_of_length_le l2.le, ← hval,
      Option.map_some]
    refine ⟨_, rfl, ?_⟩
    refine h.add hn (by rfl) (by exact n1) (by rfl) (by rfl) ?_ ?_ ?_ (by exact n4) ?_
    · exact .owner rfl vec rfl hab rfl rfl rfl ⟨_, n2, l1⟩ ⟨_, n3, l2⟩
    · rw [owner_view (by exact Function.update_self ..) rfl rfl n2 n3]
      unfold SlowCap.copyCtor Slow.copyCtor
      dsimp only
      rw [if_neg vec, if_neg vec, beq_false_of_ne hbf]
    · intro c hc
      simp only [List.mem_cons, List.not_mem_nil, or_false] at hc
      rcases hc with rfl | rfl
      · exact fa.1
      · exact fb.1
    · intro c hc
      simp only [List.mem_cons, List.not_mem_nil, or_false] at hc
      rcases hc with rfl | rfl
      · exact fa.2
      · exact fb.2
  | guest vec pool ptr refs =>
    rw [if_pos vec]
    have hsome := h.valued u (by rw [hu]; rfl)
    rw [← hval] at hsome ⊢
    have hview : ∀ f, ({ w with vars := f } : World).viewObj { o with pool := [], vecptr := .null } = (w.viewObj o).map SlowCap.copyCtor := by
      intro f
      have hb : ∀ c, ({ w with vars := f } : World).bools c = w.bools c := fun _ => rfl
      have hm : ∀ c, ({ w with vars := f } : World).nums c = w.nums c := fun _ => rfl
      unfold World.viewObj
      dsimp only
      rw [hb, hm]
      generalize (match o.actions with | none => some none | some a => (w.nums a).map some) = acts
      have hacts : (match o.actions with | none => some none | some a => (World.nums { w with vars := f } a).map some) =
        (match o.actions with | none => some none | some a => (w.nums a).map some) := rfl
      cases w.bools o.finals with
      | none => rfl
      | some fs =>
        cases w.nums o.letters with
        | none => rfl
        | some ls =>
          simp only [Option.bind_some]
          have hj : World.jumpsOf { w with vars := f } { o with pool := [], vecptr := .null } = (w.jumpsOf o).map fun j => match j with
              | .vecs _ => .null
              | j => j := by
            unfold World.jumpsOf
            dsimp only
            rcases ptr with ⟨p1, p2, p3⟩ | p1
            · rw [p1, p2, p3]
              rfl
            · rw [p1]
              dsimp only
              cases o.jumpPos with
              | none => cases o.jumps <;> rfl
              | some p =>
                cases o.jumps with
                | none => rfl
                | some j =>
                  dsimp only
                  rw [hm, hm]
                  cases w.nums p with
                  | none => rfl
                  | some ps => cases w.nums j <;> rfl
          rw [hj]
          cases w.jumpsOf o with
          | none => rfl
          | some j =>
            simp only [Option.map_some, Option.bind_some, Option.map_map]
            congr 1
            funext as
            unfold SlowCap.copyCtor Slow.copyCtor
            dsimp only [Function.comp]
            rw [if_pos vec, if_pos vec]
            cases j <;> rfl
    obtain ⟨x, hx⟩ := Option.isSome_iff_exists.1 hsome
    rw [hx, Option.map_some]
    refine ⟨_, rfl, ?_⟩
    refine h.add hn (by rfl) (by exact fun _ _ => rfl) (by rfl) (by rfl) ?_ (by rw [hview, hx]; rfl) ?_ (by exact fun c hc => .inl hc) ?_
    · exact .guest vec rfl (.inr rfl) refs
    · intro c hc; cases hc
    · intro c hc; cases hc

theorem Inv.swap (h : Inv w σ) (hv : (w.vars v).isSome) (hu : (w.vars u).isSome) :
    ∃ w', step w (.swap v u) = some w' ∧ Inv w' (valueStep σ (.swap v u)) := by
  obtain ⟨o1, h1⟩ := Option.isSome_iff_exists.1 hv
  obtain ⟨o2, h2⟩ := Option.isSome_iff_exists.1 hu
  show ∃ w', ((w.vars v).bind fun o1 => (w.vars u).map _) = some w' ∧ Inv w' (Function.update (Function.update σ v (σ u)) u (σ v))
  rw [h1, Option.bind_some, h2, Option.map_some]
  refine ⟨_, rfl, ?_⟩
  by_cases hvu : v = u
  · subst hvu
    rw [h1] at h2
    cases h2
    have e1 : Function.update (Function.update w.vars v (some { o1 with vecptr := o1.vecptr.moved v v })) v (some { o1 with vecptr := o1.vecptr.moved v v }) =
        w.vars := by
      funext x
      by_cases hx : x = v
      · subst hx
        rw [Function.update_self, h1]
        unfold VecPtr.moved
        split
        · rename_i hp; rw [← hp]
        · rfl
      · rw [Function.update_of_ne hx, Function.update_of_ne hx]
    have e2 : Function.update (Function.update σ v (σ v)) v (σ v) = σ := by
      funext x
      by_cases hx : x = v
      · subst hx
        rw [Function.update_self]
      · rw [Function.update_of_ne hx, Function.update_of_ne hx]
    rw [e1, e2]
    exact h
  generalize hw : ({ w with vars := (Function.update (Function.update w.vars v (some { o2 with vecptr := o2.vecptr.moved u v })) u (some { o1 with vecptr := o1.vecptr.moved v u })) } : World) = w'
  have hst : w'.static = w.static := by rw [← hw]
  have hh : w'.heap = w.heap := by rw [← hw]
  have hm : w'.mapped = w.mapped := by rw [← hw]
  have hv' : w'.vars v = some { o2 with vecptr := o2.vecptr.moved u v } := by rw [← hw]; dsimp only; rw [Function.update_of_ne hvu, Function.update_self]
  have hu' : w'.vars u = some { o1 with vecptr := o1.vecptr.moved v u } := by rw [← hw]; dsimp only; rw [Function.update_self]
  have hx' : ∀ x, x ≠ v → x ≠ u → w'.vars x = w.vars x := fun x a b => by
    rw [← hw]; dsimp only; rw [Function.update_of_ne b, Function.update_of_ne a]
  have hk : ∀ a, w'.heap a = w.heap a ∧ w'.mapped a = w.mapped a := fun a => by rw [hh, hm]; exact ⟨rfl, rfl⟩
  -- what is at the new place means what it meant at the old one
  have moved : ∀ {x y : Nat} {o : Obj}, w.vars x = some o → w'.vars y = some { o with vecptr := o.vecptr.moved x y } →
      w'.viewObj { o with vecptr := o.vecptr.moved x y } = w.viewObj o ∧ ObjOk w' y { o with vecptr := o.vecptr.moved x y } := by
    intro x y o hx hy
    cases h.obj x o hx with
    | owner ptr vec pool ne jumps jumpPos actions hl hf =>
      have ep : o.vecptr.moved x y = .own y := by unfold VecPtr.moved; rw [if_pos ptr]
      rw [ep] at hy ⊢
      refine ⟨viewObj_eq (q := o.pool) (by rw [hst]) (fun a _ => look_eq (hk a)) ?_, ?_⟩
      · unfold World.jumpsOf
        rw [ptr]
        dsimp only
        rw [hy, hx]
        rfl
      · refine .owner rfl vec pool ne jumps jumpPos actions ?_ ?_
        · rw [hh]; exact hl
        · rw [hh]; exact hf
    | guest vec pool ptr refs =>
      have hno : ∀ z, o.vecptr ≠ .own z := fun z hz => by
        rw [hz] at ptr
        rcases ptr with ⟨h1, -⟩ | h1 <;> cases h1
      have ep : o.vecptr.moved x y = o.vecptr := by unfold VecPtr.moved; rw [if_neg (hno x)]
      rw [ep]
      refine ⟨viewObj_eq (p := o.vecptr) (q := o.pool) (by rw [hst]) (fun a _ => look_eq (hk a)) (jumpsOf_guest hst hno fun a _ => look_eq (hk a)), ?_⟩
      refine .guest vec pool ptr fun a ha => ?_
      rw [hst, hm]
      exact refs a ha
  obtain ⟨m1, m2⟩ := moved h2 hv'
  obtain ⟨m3, m4⟩ := moved h1 hu'
  -- every variable of the new world has the pool of a variable of the old one
  have back : ∀ x p, w'.vars x = some p → ∃ q, w.vars (if x = v then u else if x = u then v else x) = some q ∧ q.pool = p.pool := by
    intro x p hx
    by_cases a : x = v
    · subst a
      rw [hv'] at hx
      cases hx
      exact ⟨o2, by rw [if_pos rfl]; exact h2, rfl⟩
    by_cases b : x = u
    · subst b
      rw [hu'] at hx
      cases hx
      exact ⟨o1, by rw [if_neg a, if_pos rfl]; exact h1, rfl⟩
    · rw [hx' x a b] at hx
      exact ⟨p, by rw [if_neg a, if_neg b]; exact hx, rfl⟩
  refine ⟨fun x => ?_, fun x hx => ?_, fun x p hx => ?_, fun x y p q a hx hy ha hb => ?_, fun x p a hx ha => ?_, fun a ha => ?_, fun a ha => ?_, ?_⟩
  · by_cases b : x = u
    · subst b
      rw [Function.update_self, view_some hu', m3, ← view_some h1]
      exact h.view v
    by_cases a : x = v
    · subst a
      rw [Function.update_of_ne b, Function.update_self, view_some hv', m1, ← view_some h2]
      exact h.view u
    · rw [Function.update_of_ne b, Function.update_of_ne a, ← h.view x]
      cases hxo : w.vars x with
      | none => rw [view_none hxo, view_none (by rw [hx' x a b]; exact hxo)]
      | some p =>
        have hxo' : w'.vars x = some p := by rw [hx' x a b]; exact hxo
        rw [view_some hxo, view_some hxo']
        exact (h.obj x p hxo).view_eq hst (fun a _ => hk a) hxo hxo'
  · by_cases b : x = u
    · subst b
      rw [Function.update_self]
      exact h.valued v hv
    by_cases a : x = v
    · subst a
      rw [Function.update_of_ne b, Function.update_self]
      exact h.valued u hu
    · rw [Function.update_of_ne b, Function.update_of_ne a]
      rw [hx' x a b] at hx
      exact h.valued x hx
  · by_cases b : x = u
    · subst b
      rw [hu'] at hx
      cases hx
      exact m4
    by_cases a : x = v
    · subst a
      rw [hv'] at hx
      cases hx
      exact m2
    · rw [hx' x a b] at hx
      exact (h.obj x p hx).keep hst fun a _ => hk a
  · obtain ⟨p', hp, ep⟩ := back x p hx
    obtain ⟨q', hq, eq⟩ := back y q hy
    have := h.apart _ _ p' q' a hp hq (by rw [ep]; exact ha) (by rw [eq]; exact hb)
    split_ifs at this <;> omega
  · obtain ⟨p', hp, ep⟩ := back x p hx
    rw [hst]
    exact h.away _ p' a hp (by rw [ep]; exact ha)
  · rw [hh] at ha
    rw [hst]
    rcases h.noleak a ha with e | e | ⟨x, p, hx, hp⟩
    · exact .inl e
    · exact .inr (.inl e)
    · refine .inr (.inr ?_)
      by_cases b : x = u
      · subst b
        rw [h2] at hx
        cases hx
        exact ⟨v, _, hv', hp⟩
      by_cases c : x = v
      · subst c
        rw [h1] at hx
        cases hx
        exact ⟨u, _, hu', hp⟩
      · exact ⟨x, p, by rw [hx' x c b]; exact hx, hp⟩
  · rw [hm]
    rw [hh] at ha
    exact h.disj a ha
  · obtain ⟨s1, s2, s3, s4, s5, s6, s7, s8⟩ := h.static
    refine ⟨?_, ?_, ?_, ?_, ?_, ?_, ?_, ?_⟩ <;> rw [hst]
    · rw [hh]; exact s1
    · rw [hh]; exact s2
    all_goals assumption

/-- Mapping and unmapping what no variable refers to. -/
theorem Inv.remap (h : Inv w σ) {a : Nat} {x : Option Arr} (hr : ∀ v o, w.vars v = some o → a ∉ o.refs) (ha : w.heap a = none ∨ x = none) :
    Inv { w with mapped := Function.update w.mapped a x } σ := by
  have keep : ∀ u p, w.vars u = some p → ∀ c ∈ p.refs, w.heap c = w.heap c ∧ Function.update w.mapped a x c = w.mapped c := fun u p hu c hc =>
    ⟨rfl, Function.update_of_ne (fun (e : c = a) => hr u p hu (by rw [← e]; exact hc)) ..⟩
  refine ⟨fun u => ?_, h.valued, fun u p hu => (h.obj u p hu).keep rfl (keep u p hu), h.apart, h.away, h.noleak, fun c hc => ?_, ?_⟩
  · rw [← h.view u]
    cases hu : w.vars u with
    | none => rw [view_none hu, view_none (by exact hu)]
    | some p =>
      rw [view_some hu, view_some (by exact hu)]
      exact (h.obj u p hu).view_eq rfl (keep u p hu) hu hu
  · show Function.update w.mapped a x c = none
    by_cases hca : c = a
    · subst hca
      rw [Function.update_self]
      rcases ha with e | e
      · have hc : (w.heap c).isSome := hc
        rw [e] at hc; cases hc
      · exact e
    · rw [Function.update_of_ne hca]
      exact h.disj c hc
  · exact ⟨h.static.letters, h.static.finals, h.static.vec, h.static.vecptr, h.static.jumps, h.static.jumpPos, h.static.actions, h.static.counts⟩

theorem freeAll_two {heap : Nat → Option Arr} {a b : Nat} (ha : (heap a).isSome) (hb : (heap b).isSome) (hab : a ≠ b) :
    freeAll heap [a, b] = some (Function.update (Function.update heap a none) b none) := by
  unfold freeAll
  rw [List.foldlM_cons, if_pos ha, Option.bind_eq_bind, Option.bind_some, List.foldlM_cons, if_pos (by rw [Function.update_of_ne hab.symm]; exact hb)]
  rfl

theorem Inv.destroy (h : Inv w σ) (hv : w.vars v = some o) : ∃ w', step w (.destroy v) = some w' ∧ Inv w' (valueStep σ (.destroy v)) := by
  have ok := h.obj v o hv
  show ∃ w', (w.vars v).bind _ = some w' ∧ Inv w' (Function.update σ v none)
  rw [hv, Option.bind_some]
  obtain ⟨heap, e1, e2, e3⟩ : ∃ heap, freeAll w.heap o.pool = some heap ∧ (∀ a ∉ o.pool, heap a = w.heap a) ∧ ∀ a ∈ o.pool, heap a = none := by
    cases ok with
    | owner ptr vec pool ne jumps jumpPos actions hl hf =>
      obtain ⟨l, h1, -⟩ := hl
      obtain ⟨f, h2, -⟩ := hf
      rw [pool]
      refine ⟨_, freeAll_two (by rw [h1]; rfl) (by rw [h2]; rfl) ne, fun a ha => ?_, fun a ha => ?_⟩
      · simp only [List.mem_cons, List.not_mem_nil, or_false, not_or] at ha
        rw [Function.update_of_ne ha.2, Function.update_of_ne ha.1]
      · simp only [List.mem_cons, List.not_mem_nil, or_false] at ha
        rcases ha with rfl | rfl
        · rw [Function.update_of_ne ne, Function.update_self]
        · rw [Function.update_self]
    | guest vec pool ptr refs =>
      rw [pool]
      exact ⟨_, rfl, fun _ _ => rfl, fun a ha => by cases ha⟩
  rw [e1, Option.map_some]
  refine ⟨_, rfl, ?_⟩
  have old : ∀ u p, Function.update w.vars v none u = some p → u ≠ v ∧ w.vars u = some p := by
    intro u p hu
    have huv : u ≠ v := by rintro rfl; rw [Function.update_self] at hu; cases hu
    rw [Function.update_of_ne huv] at hu
    exact ⟨huv, hu⟩
  have keep : ∀ u p, u ≠ v → w.vars u = some p → ∀ c ∈ p.refs, heap c = w.heap c ∧ w.mapped c = w.mapped c := by
    intro u p huv hu c hc
    refine ⟨e2 c fun hx => ?_, rfl⟩
    cases h.obj u p hu with
    | owner ptr vec pool ne jumps jumpPos actions hl hf =>
      refine huv (h.apart u v p o c hu hv ?_ hx)
      rw [pool]
      rcases (owner_refs jumps jumpPos actions).1 hc with rfl | rfl <;> simp
    | guest vec pool ptr refs =>
      have ha := h.away v o c hv hx
      rcases refs c hc with e | e | e
      · exact ha.1 e
      · exact ha.2 e
      · rw [h.disj c (ok.pool_heap hx)] at e
        cases e
  refine ⟨fun u => ?_, fun u hu => ?_, fun u p hu => ?_, fun x y p q a hx hy ha hb => ?_, fun u p a hu ha => ?_, fun a ha => ?_, fun a ha => ?_, ?_⟩
  · by_cases huv : u = v
    · subst huv
      rw [Function.update_self]
      exact view_none (by exact Function.update_self ..)
    · rw [Function.update_of_ne huv, ← h.view u]
      cases hu : w.vars u with
      | none => rw [view_none hu]; exact view_none (by show Function.update w.vars v none u = none; rw [Function.update_of_ne huv]; exact hu)
      | some p =>
        have hu' : Function.update w.vars v none u = some p := by rw [Function.update_of_ne huv]; exact hu
        rw [view_some hu, view_some (by exact hu')]
        exact (h.obj u p hu).view_eq rfl (keep u p huv hu) hu hu'
  · by_cases huv : u = v
    · subst huv
      have hu : (Function.update w.vars u none u).isSome := hu
      rw [Function.update_self] at hu
      cases hu
    · rw [Function.update_of_ne huv]
      have hu : (Function.update w.vars v none u).isSome := hu
      rw [Function.update_of_ne huv] at hu
      exact h.valued u hu
  · obtain ⟨a1, a2⟩ := old u p hu
    exact (h.obj u p a2).keep rfl (keep u p a1 a2)
  · exact h.apart x y p q a (old x p hx).2 (old y q hy).2 ha hb
  · exact h.away u p a (old u p hu).2 ha
  · have ha : (heap a).isSome := ha
    have hnp : a ∉ o.pool := fun hx => by rw [e3 a hx] at ha; cases ha
    rw [e2 a hnp] at ha
    rcases h.noleak a ha with e | e | ⟨x, p, hx, hp⟩
    · exact .inl e
    · exact .inr (.inl e)
    · refine .inr (.inr ⟨x, p, ?_, hp⟩)
      show Function.update w.vars v none x = some p
      rw [Function.update_of_ne]
      · exact hx
      · rintro rfl
        rw [hv] at hx
        cases hx
        exact hnp hp
  · have ha : (heap a).isSome := ha
    have hnp : a ∉ o.pool := fun hx => by rw [e3 a hx] at ha; cases ha
    rw [e2 a hnp] at ha
    exact h.disj a ha
  · have hl : w.static.letters ∉ o.pool := fun hx => (h.away v o _ hv hx).1 rfl
    have hf : w.static.finals ∉ o.pool := fun hx => (h.away v o _ hv hx).2 rfl
    exact ⟨(e2 _ hl).trans h.static.letters, (e2 _ hf).trans h.static.finals, h.static.vec, h.static.vecptr, h.static.jumps, h.static.jumpPos, h.static.actions,
      h.static.counts⟩

theorem Inv.step (h : Inv w σ) {op : Op} (hl : Legal w op) : ∃ w', SlowLife.step w op = some w' ∧ Inv w' (valueStep σ op) := by
  cases op with
  | default v n => exact h.default hl n
  | make v x a b => exact h.make hl.1 hl.2.1 hl.2.2.1 hl.2.2.2.1 hl.2.2.2.2
  | attach v x l f p j a => exact h.attach hl.1 hl.2
  | copy v u a b =>
    obtain ⟨h1, o, h2, h3⟩ := hl
    exact h.copy h1 h2 h3
  | swap v u => exact h.swap hl.1 hl.2
  | destroy v =>
    obtain ⟨o, ho⟩ := Option.isSome_iff_exists.1 hl
    exact h.destroy ho
  | map a x =>
    refine ⟨_, rfl, h.remap (fun v o hv ha => (h.obj v o hv).used h.static ha hl) (.inl hl.1)⟩
  | unmap a => exact ⟨_, rfl, h.remap hl (.inr rfl)⟩

theorem start_inv (h : Start w) : Inv w fun _ => none := by
  refine ⟨fun v => view_none (h.vars v), fun v hv => ?_, fun v o hv => ?_, fun v u o p a hv => ?_, fun v o a hv => ?_, fun a ha => ?_, fun a _ => h.mapped a, ?_⟩
  · rw [h.vars v] at hv; cases hv
  · rw [h.vars v] at hv; cases hv
  · rw [h.vars v] at hv; cases hv
  · rw [h.vars v] at hv; cases hv
  · rcases h.heap a ha with e | e
    · exact .inl e
    · exact .inr (.inl e)
  · exact ⟨h.letters, h.finals, h.vec, h.vecptr, h.jumps, h.jumpPos, h.actions, h.counts⟩

theorem built_copy {x : SlowCap} (h : Built x) : x.copyCtor = x := by
  unfold SlowCap.copyCtor Slow.copyCtor
  rw [if_neg h.filled, if_neg h.filled, ← h.jumps, ← h.actions, ← h.nonempty]

theorem mapped_copy {x : SlowCap} {l f p j : Nat} {a : Option Nat} (h : Mapped w x l f p j a) : x.copyCtor = x := by
  obtain ⟨ps, js, hj, -, -⟩ := h.jumps
  unfold SlowCap.copyCtor Slow.copyCtor
  rw [if_pos h.vec, if_pos h.vec, hj]
  dsimp only
  rw [← hj]

theorem seen_copied {z : Held} (h : ∀ x, z = .scanner x → x.copyCtor = x) : z.copied.seen = z.seen.copyCtor := by
  cases z with
  | scanner x => exact (h x rfl).symm
  | empty n => rfl
  | broken n => rfl

/-- What is held, as what is seen. -/
def seens (τ : Nat → Option Held) : Nat → Option SlowCap := fun v => (τ v).map Held.seen

theorem seens_update (τ : Nat → Option Held) (v : Nat) (z : Option Held) : seens (Function.update τ v z) = Function.update (seens τ) v (z.map Held.seen) := by
  funext x
  unfold seens
  by_cases hx : x = v
  · subst hx; rw [Function.update_self, Function.update_self]
  · rw [Function.update_of_ne hx, Function.update_of_ne hx]

theorem heldStep_seens {τ : Nat → Option Held} (h : ∀ v x, τ v = some (.scanner x) → x.copyCtor = x) {op : Op} (hl : Legal w op) :
    seens (heldStep τ op) = valueStep (seens τ) op ∧ ∀ v x, heldStep τ op v = some (.scanner x) → x.copyCtor = x := by
  have up : ∀ {τ : Nat → Option Held} {v : Nat} {z : Option Held}, (∀ v x, τ v = some (.scanner x) → x.copyCtor = x) → (∀ x, z = some (.scanner x) → x.copyCtor = x) →
      ∀ u x, Function.update τ v z u = some (.scanner x) → x.copyCtor = x := by
    intro τ v z h hz u x hx
    by_cases huv : u = v
    · subst huv; rw [Function.update_self] at hx; exact hz x hx
    · rw [Function.update_of_ne huv] at hx; exact h u x hx
  cases op with
  | default v n => exact ⟨seens_update .., up h fun x hx => by cases hx⟩
  | make v x a b => exact ⟨seens_update .., up h fun y hy => by cases hy; exact built_copy hl.2.2.2.2⟩
  | attach v x l f p j a => exact ⟨seens_update .., up h fun y hy => by cases hy; exact mapped_copy hl.2⟩
  | copy v u a b =>
    refine ⟨(seens_update ..).trans ?_, up h fun y hy => ?_⟩
    · show _ = Function.update (seens τ) v (((τ u).map Held.seen).map SlowCap.copyCtor)
      congr 1
      cases hu : τ u with
      | none => rfl
      | some z => exact congrArg some (seen_copied fun x hx => h u x (by rw [hu, hx]))
    · rw [Option.map_eq_some_iff] at hy
      obtain ⟨z, hz, e⟩ := hy
      cases z with
      | scanner x => cases e; exact h u _ hz
      | empty n => cases e
      | broken n => cases e
  | swap v u => exact ⟨by show seens (Function.update (Function.update τ v (τ u)) u (τ v)) = _; rw [seens_update, seens_update]; rfl, up (up h (h u)) (h v)⟩
  | destroy v => exact ⟨seens_update .., up h fun x hx => by cases hx⟩
  | map a x => exact ⟨rfl, h⟩
  | unmap a => exact ⟨rfl, h⟩

theorem Inv.run {ops : List Op} {τ : Nat → Option Held} (h : Inv w (seens τ)) (hc : ∀ v x, τ v = some (.scanner x) → x.copyCtor = x) (hl : LegalRun w ops) :
    ∃ w', SlowLife.run w ops = some w' ∧ Inv w' (seens (ops.foldl heldStep τ)) := by
  induction ops generalizing w τ with
  | nil => exact ⟨w, rfl, h⟩
  | cons op ops ih =>
    obtain ⟨w1, h1, h2⟩ := h.step hl.1
    obtain ⟨e1, e2⟩ := heldStep_seens hc hl.1
    rw [← e1] at h2
    obtain ⟨w2, h3, h4⟩ := ih h2 e2 (hl.2 w1 h1)
    refine ⟨w2, ?_, h4⟩
    unfold SlowLife.run
    rw [List.foldlM_cons, h1]
    exact h3

theorem legalRun_append {ops ops' : List Op} : LegalRun w (ops ++ ops') ↔ LegalRun w ops ∧ ∀ w', run w ops = some w' → LegalRun w' ops' := by
  induction ops generalizing w with
  | nil => exact ⟨fun h => ⟨trivial, fun w' hw => by cases hw; exact h⟩, fun h => h.2 w rfl⟩
  | cons op ops ih =>
    have e : run w (op :: ops) = (step w op).bind fun w1 => run w1 ops := by unfold run; rw [List.foldlM_cons]; rfl
    rw [e]
    constructor
    · rintro ⟨h1, h2⟩
      refine ⟨⟨h1, fun w1 hw => (ih.1 (h2 w1 hw)).1⟩, fun w' hw => ?_⟩
      rw [Option.bind_eq_some_iff] at hw
      obtain ⟨w1, g1, g2⟩ := hw
      exact (ih.1 (h2 w1 g1)).2 w' g2
    · rintro ⟨⟨h1, h2⟩, h3⟩
      exact ⟨h1, fun w1 hw => ih.2 ⟨h2 w1 hw, fun w' hw' => h3 w' (by rw [hw, Option.bind_some]; exact hw')⟩⟩

end SlowLife
end Pire
