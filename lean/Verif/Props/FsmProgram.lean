import Verif.Proofs.FsmProgram
import Verif.Props.Edit

/-!
# Property C66: programs over variables of type `Fsm`

Operands may be named twice: `x = x + x`, `x &= x`, `x.Swap(x)`. `Spec.effects` says what the variables stand for;
`FsmMem.run` runs the program on objects in memory, where `x += x` and `x |= x` leave their table.
-/

namespace Pire
namespace Props

open Spec FsmMem
open Fsm (iterate_initial_not_final lang_iterate complement_spec lang_prependAnything appendAnything_initial_not_final lang_appendAnything
  reverse_initial_not_final lang_reverse canonize_spec power_good power_initial_not_final power_spec concat_initial_not_final lang_concat union_shape)

/-- The automaton is what the expression stands for (as far as C04 lets it be). -/
def Holds (f : Fsm) (e : Expr) : Prop :=
  e.Ok → f.Good ∧ f.Lang = e.den ∧ (e.mayStartFinal = false → f.initial ∉ f.finals)

theorem Holds.leaf {l : Leaf} {f : Fsm} (h : FsmMem.leaf l = some f) : Holds f l.expr := by
  intro ok
  cases l <;> exact build_spec _ ok f h

/-- The operations on values. -/
def unVal : UnOp → Fsm → Option Fsm
  | .iterate, f => some f.iterate
  | .complement, f => f.complement
  | .prependAnything, f => some f.prependAnything
  | .appendAnything, f => some f.appendAnything
  | .surround, f => some f.surround
  | .reverse, f => some f.reverse
  | .canonize m, f => f.canonize m
  | .times n, f => some (f.power n)

def binVal : BinOp → Fsm → Fsm → Option Fsm
  | .cat, f, g => some (f.concat g)
  | .alt, f, g => some (f.union g)
  | .both, f, g => f.inter g

theorem Holds.un {f g : Fsm} {e : Expr} (h : Holds f e) (o : UnOp) (hg : unVal o f = some g) : Holds g (o.expr e) := by
  intro ok
  cases o with
  | iterate =>
    cases hg
    obtain ⟨a1, a2, -⟩ := h ok
    exact ⟨a1.iterate, by rw [lang_iterate a1.wf, a2]; rfl, fun _ => iterate_initial_not_final f⟩
  | complement =>
    obtain ⟨a1, a2, -⟩ := h ok
    obtain ⟨c1, c2, c3⟩ := complement_spec a1 hg
    exact ⟨c1, by rw [c2, a2]; rfl, fun _ => c3⟩
  | prependAnything =>
    obtain rfl := Option.some.inj hg
    obtain ⟨a1, a2, -⟩ := h ok
    refine ⟨a1.prependAnything, by rw [lang_prependAnything a1.wf, a2]; rfl, fun _ => ?_⟩
    have h1 : f.prependAnything.initial = f.size := rfl
    have h2 : f.prependAnything.finals = f.finals := by simp [Fsm.prependAnything]
    rw [h1, h2]
    exact fun h => absurd (a1.wf.fin_lt _ h) (lt_irrefl _)
  | appendAnything =>
    cases hg
    obtain ⟨a1, a2, -⟩ := h ok
    exact ⟨a1.appendAnything, by rw [lang_appendAnything a1.wf, a2]; rfl, fun _ => appendAnything_initial_not_final a1.wf⟩
  | surround =>
    obtain rfl := Option.some.inj hg
    obtain ⟨a1, a2, -⟩ := h ok
    refine ⟨a1.surround, ?_, fun _ => appendAnything_initial_not_final a1.wf.prependAnything⟩
    rw [Fsm.surround, lang_appendAnything a1.wf.prependAnything, lang_prependAnything a1.wf, a2]; rfl
  | reverse =>
    cases hg
    obtain ⟨a1, a2, -⟩ := h ok
    exact ⟨a1.reverse, by rw [lang_reverse a1.wf, a2]; rfl, fun _ => reverse_initial_not_final a1.wf⟩
  | canonize m =>
    obtain ⟨a1, a2, -⟩ := h ok
    obtain ⟨c1, c2, c3, -⟩ := canonize_spec a1 hg
    exact ⟨.of_det c1 c2, by rw [c3, a2]; rfl, by simp [UnOp.expr, Expr.mayStartFinal]⟩
  | times n =>
    cases hg
    obtain ⟨a1, a2, a3⟩ := h ok.1
    refine ⟨power_good a1 n, ?_, fun h => power_initial_not_final a1 (by simpa [UnOp.expr, Expr.mayStartFinal] using h)⟩
    rw [(power_spec a1.wf a1.coh (a3 ok.2) n).2.2, a2]; rfl

theorem Holds.cat {f g : Fsm} {a b : Expr} (h : Holds f a) (h2 : Holds g b) : Holds (f.concat g) (.cat a b) := by
  intro ok
  obtain ⟨a1, a2, -⟩ := h ok.1
  obtain ⟨b1, b2, b3⟩ := h2 ok.2.1
  refine ⟨a1.concat b1, ?_, fun _ => concat_initial_not_final a1.wf a1.coh b1.wf b1.coh⟩
  rw [lang_concat a1.wf a1.coh b1.wf b1.coh (b3 ok.2.2), a2, b2]; rfl

theorem Holds.alt {f g : Fsm} {a b : Expr} (h : Holds f a) (h2 : Holds g b) : Holds (f.union g) (.alt a b) := by
  intro ok
  obtain ⟨a1, a2, -⟩ := h ok.1
  obtain ⟨b1, b2, b3⟩ := h2 ok.2
  have us := union_shape a1.wf a1.coh a1.alt b1.wf b1.coh b1.alt
  refine ⟨a1.union b1, ?_, fun _ => us.init_not_fin⟩
  rw [us.lang, a2, b2]; rfl

theorem Holds.both {f g k : Fsm} {a b : Expr} (h : Holds f a) (h2 : Holds g b) (hk : f.inter g = some k) : Holds k (.both a b) := by
  intro ok
  obtain ⟨a1, a2, -⟩ := h ok.1
  obtain ⟨b1, b2, b3⟩ := h2 ok.2
  have hg := (C21_operations_preserve_good a1 b1).2.2.2.2.2.2.2.2.2.2.2.1 k hk
  refine ⟨hg, ?_, fun _ => ?_⟩
  · ext w; rw [C08_intersection a1 b1 hk, a2, b2]; rfl
  · unfold Fsm.inter at hk
    simp only [Option.bind_eq_bind, Option.bind_eq_some_iff] at hk
    obtain ⟨r, hr, f', hf', hk⟩ := hk
    exact (complement_spec ((complement_spec a1 hf').1.union (complement_spec b1 hr).1) hk).2.2

/-- The hint that `Swap` forgets has no influence on anything above. -/
theorem Holds.sparsed {f : Fsm} {e : Expr} (h : Holds f e) (b : Bool) : Holds { f with sparsed := b } e := by
  intro ok
  obtain ⟨⟨h1, h2, h3, h4, h5⟩, h6, h7⟩ := h ok
  refine ⟨⟨⟨h1.init_lt, h1.fin_lt, h1.tr_lt, h1.let_wf, h1.let_lt⟩, h2, h3, h4, fun hd => ?_⟩, h6, h7⟩
  exact (h5 hd).swapFrom (f := { f with sparsed := b })

/-- Every variable holds what it stands for. -/
def All (s : Store) (E : Nat → Expr) : Prop := ∀ x, Holds (s (.var x)) (E x)

theorem All.put {s : Store} {E : Nat → Expr} (h : All s E) (x : Nat) {f : Fsm} {e : Expr} (hf : Holds f e) :
    All (FsmMem.put s (.var x) f) (Function.update E x e) := by
  intro y
  by_cases hy : y = x
  · subst hy; rw [put_same, Function.update_self]; exact hf
  · rw [put_other _ (by simpa using hy), Function.update_of_ne hy]; exact h y

theorem All.temp {s : Store} {E : Nat → Expr} (h : All s E) (f : Fsm) : All (FsmMem.put s .temp f) E := by
  intro y; rw [put_other _ (by simp)]; exact h y

theorem timesLoop_temp (x n : Nat) (s : Store) :
    timesLoop (.var x) n (put s .temp Fsm.init) = .done (put s .temp ((s (.var x)).power n)) := by
  rw [timesLoop_eq (by simp) n 0 _ (by rw [put_same]; rfl), put_put, put_other _ (by simp), Nat.zero_add]

/-- The value operations, for two places that differ. -/
theorem modify2_eq {x y : Place} (h : y ≠ x) (o : BinOp) (s : Store) :
    modify2 o x y s = (Ran.ofOption (binVal o (s x) (s y))).bind fun g => .done (put s x g) := by
  cases o with
  | cat => exact add_eq h s
  | alt => exact or_eq h s
  | both => exact and_eq x y s

theorem Holds.bin {f g k : Fsm} {a b : Expr} (h : Holds f a) (h2 : Holds g b) (o : BinOp)
    (hk : binVal o f g = some k) : Holds k (o.expr a b) := by
  cases o with
  | cat => cases hk; exact h.cat h2
  | alt => cases hk; exact h.alt h2
  | both => exact h.both h2 hk

/-- One statement. -/
theorem exec_spec {s : Store} {E : Nat → Expr} (h : All s E) (c : Stmt) (hc : ¬ c.selfImport) :
    exec s c ≠ .outside ∧ ∀ s', exec s c = .done s' → All s' (c.effect E) := by
  have opt : ∀ (o : Option Fsm) (k : Fsm → Store) (E' : Nat → Expr), (∀ g, o = some g → All (k g) E') →
      (Ran.ofOption o).bind (fun g => .done (k g)) ≠ .outside ∧
      ∀ s', (Ran.ofOption o).bind (fun g => .done (k g)) = .done s' → All s' E' := by
    intro o k E' hk
    cases o with
    | none => exact ⟨nofun, nofun⟩
    | some g => exact ⟨nofun, fun s' hs => by cases hs; exact hk g rfl⟩
  cases c with
  | make x l => exact opt _ _ _ fun g hg => h.put x (.leaf hg)
  | copy x y => exact ⟨nofun, fun s' hs => by cases hs; exact h.put x (h y)⟩
  | swap x y =>
    refine ⟨nofun, fun s' hs => ?_⟩
    cases hs
    unfold FsmMem.swap
    exact (h.put x ((h y).sparsed _)).put y ((h x).sparsed _)
  | mod1 o x =>
    cases o with
    | iterate => exact ⟨nofun, fun s' hs => by cases hs; exact h.put x ((h x).un .iterate rfl)⟩
    | complement => exact opt _ _ _ fun g hg => h.put x ((h x).un .complement hg)
    | prependAnything => exact ⟨nofun, fun s' hs => by cases hs; exact h.put x ((h x).un .prependAnything rfl)⟩
    | appendAnything => exact ⟨nofun, fun s' hs => by cases hs; exact h.put x ((h x).un .appendAnything rfl)⟩
    | surround => exact ⟨nofun, fun s' hs => by cases hs; exact h.put x ((h x).un .surround rfl)⟩
    | reverse => exact ⟨nofun, fun s' hs => by cases hs; exact h.put x ((h x).un .reverse rfl)⟩
    | canonize m => exact opt _ _ _ fun g hg => h.put x ((h x).un (.canonize m) hg)
    | times n =>
      have e : exec s (.mod1 (.times n) x) = .done (put (put s .temp ((s (.var x)).power n)) (.var x) ((s (.var x)).power n)) := by
        unfold exec modify1 times
        simp only
        rw [timesLoop_temp]
        simp only [Ran.bind, put_same]
      rw [e]
      exact ⟨nofun, fun s' hs => by cases hs; exact (h.temp _).put x ((h x).un (.times n) rfl)⟩
  | val1 o x y =>
    cases o with
    | iterate => exact ⟨nofun, fun s' hs => by cases hs; exact h.put x ((h y).un .iterate rfl)⟩
    | complement => exact opt _ _ _ fun g hg => h.put x ((h y).un .complement hg)
    | prependAnything => exact ⟨nofun, fun s' hs => by cases hs; exact h.put x ((h y).un .prependAnything rfl)⟩
    | appendAnything => exact ⟨nofun, fun s' hs => by cases hs; exact h.put x ((h y).un .appendAnything rfl)⟩
    | surround => exact ⟨nofun, fun s' hs => by cases hs; exact h.put x ((h y).un .surround rfl)⟩
    | reverse => exact ⟨nofun, fun s' hs => by cases hs; exact h.put x ((h y).un .reverse rfl)⟩
    | canonize m => exact opt _ _ _ fun g hg => h.put x ((h y).un (.canonize m) hg)
    | times n =>
      have e : exec s (.val1 (.times n) x y) = .done (put (put s .temp ((s (.var y)).power n)) (.var x) ((s (.var y)).power n)) := by
        unfold exec value1
        simp only
        rw [timesLoop_temp]
        simp only [Ran.bind, put_same]
      rw [e]
      exact ⟨nofun, fun s' hs => by cases hs; exact (h.temp _).put x ((h y).un (.times n) rfl)⟩
  | mod2 o x y =>
    by_cases hxy : y = x
    · subst hxy
      cases o with
      | cat => exact absurd rfl hc
      | alt => exact absurd rfl hc
      | both =>
        unfold exec modify2
        simp only
        rw [and_eq]
        exact opt _ _ _ fun g hg => h.put y ((h y).both (h y) hg)
    · unfold exec
      simp only
      rw [modify2_eq (by simpa using hxy)]
      exact opt _ _ _ fun g hg => h.put x ((h x).bin (h y) o hg)
  | val2 o x y z =>
    unfold exec value2
    simp only
    rw [modify2_eq (by simp)]
    simp only [put_same, put_other s (show Place.var z ≠ .temp by simp)]
    generalize ho : binVal o (s (.var y)) (s (.var z)) = r
    cases r with
    | none => exact ⟨nofun, nofun⟩
    | some g =>
      simp only [Ran.ofOption, Ran.bind, put_same, put_put]
      exact ⟨nofun, fun s' hs => by cases hs; exact (h.temp _).put x ((h y).bin (h z) o ho)⟩

theorem run_spec : ∀ (p : List Stmt) {s : Store} {E : Nat → Expr}, All s E → (∀ c ∈ p, ¬ c.selfImport) →
    run p s ≠ .outside ∧ ∀ s', run p s = .done s' → All s' (p.foldl Stmt.effect E) := by
  intro p
  induction p with
  | nil => intro s E h _; exact ⟨nofun, fun s' hs => by cases hs; exact h⟩
  | cons c p ih =>
    intro s E h hp
    obtain ⟨e1, e2⟩ := exec_spec h c (hp c (by simp))
    unfold run
    cases he : exec s c with
    | throws => exact ⟨nofun, nofun⟩
    | outside => exact absurd he e1
    | done s1 => exact ih (e2 s1 he) fun d hd => hp d (by simp [hd])

theorem start_all : All start fun _ => .empty := fun _ => Holds.leaf (l := .empty) rfl

/-- Full statement: every program works, and afterwards each variable accepts what its expression denotes. Proved for programs without
`x += x` and `x |= x` (which are undefined: below), and for variables whose expressions avoid the defect of C04. -/
theorem C66_programs_partial {p : List Stmt} (hp : ∀ c ∈ p, ¬ c.selfImport) {s : Store} (h : run p start = .done s)
    (x : Nat) (ok : (effects p x).Ok) (w : List Nat) : w ∈ (s (.var x)).Lang ↔ w ∈ (effects p x).den := by
  rw [((run_spec p start_all hp).2 s h x ok).2.1]
  rfl

/-- No such program leaves the tables of its automata ... -/
theorem C66_never_outside {p : List Stmt} (hp : ∀ c ∈ p, ¬ c.selfImport) : run p start ≠ .outside :=
  (run_spec p start_all hp).1

/-- ... and all numbers stored in them stay in range. -/
theorem C66_in_bounds {p : List Stmt} (hp : ∀ c ∈ p, ¬ c.selfImport) {s : Store} (h : run p start = .done s)
    (x : Nat) (ok : (effects p x).Ok) : InBounds (s (.var x)) :=
  C21_good_in_bounds ((run_spec p start_all hp).2 s h x ok).1

/-- A statement changes the variable on its left (and the other one of `Swap`) only. -/
theorem C66_frame {s s' : Store} {c : Stmt} (h : exec s c = .done s') (z : Nat)
    (hz : match c with
      | .make x _ | .copy x _ | .mod1 _ x | .val1 _ x _ | .mod2 _ x _ | .val2 _ x _ _ => z ≠ x
      | .swap x y => z ≠ x ∧ z ≠ y)
    (hc : ¬ c.selfImport) : s' (.var z) = s (.var z) := by
  have ne : ∀ {x : Nat}, z ≠ x → Place.var z ≠ .var x := fun h h' => h (by cases h'; rfl)
  have opt : ∀ (o : Option Fsm) (x : Nat), z ≠ x → (Ran.ofOption o).bind (fun g => .done (put s (.var x) g)) = .done s' → s' (.var z) = s (.var z) := by
    intro o x hx hs
    cases o with
    | none => cases hs
    | some g => cases hs; exact put_other _ (ne hx) _
  cases c with
  | make x l => exact opt _ x hz h
  | copy x y => cases h; exact put_other _ (ne hz) _
  | swap x y =>
    cases h
    unfold FsmMem.swap
    simp only
    rw [put_other _ (ne hz.2), put_other _ (ne hz.1)]
  | mod1 o x =>
    cases o with
    | complement | canonize m => exact opt _ x hz h
    | times n =>
      unfold exec modify1 times at h
      simp only at h
      rw [timesLoop_temp] at h
      cases h
      rw [put_other _ (ne hz), put_other _ (by simp)]
    | _ => cases h; exact put_other _ (ne hz) _
  | val1 o x y =>
    cases o with
    | complement | canonize m => exact opt _ x hz h
    | times n =>
      unfold exec value1 at h
      simp only at h
      rw [timesLoop_temp] at h
      cases h
      rw [put_other _ (ne hz), put_other _ (by simp)]
    | _ => cases h; exact put_other _ (ne hz) _
  | mod2 o x y =>
    by_cases hxy : y = x
    · subst hxy
      cases o with
      | cat => exact absurd rfl hc
      | alt => exact absurd rfl hc
      | both =>
        unfold exec modify2 at h
        simp only at h
        rw [and_eq] at h
        exact opt _ y hz h
    · unfold exec at h
      simp only at h
      rw [modify2_eq (by simpa using hxy)] at h
      exact opt _ x hz h
  | val2 o x y z' =>
    unfold exec value2 at h
    simp only at h
    rw [modify2_eq (by simp)] at h
    generalize binVal o (put s .temp (s (.var y)) .temp) (put s .temp (s (.var y)) (.var z')) = r at h
    cases r with
    | none => cases h
    | some g =>
      cases h
      rw [put_other _ (ne hz), put_other _ (by simp), put_other _ (by simp)]

/-- Statements that can throw at all: `AppendStrings`, and what determines an automaton. -/
def Stmt.mayThrow : Stmt → Prop
  | .make _ (.strings _) | .mod1 .complement _ | .mod1 (.canonize _) _ | .val1 .complement .. | .val1 (.canonize _) .. | .mod2 .both ..
  | .val2 .both .. => True
  | _ => False

/-- Programs without these run to their end, whatever their operands are. -/
theorem C66_completes : ∀ {p : List Stmt}, (∀ c ∈ p, ¬ c.selfImport ∧ ¬ Stmt.mayThrow c) → ∀ s, ∃ s', run p s = .done s' := by
  intro p
  induction p with
  | nil => exact fun _ s => ⟨s, rfl⟩
  | cons c p ih =>
    intro hp s
    have one : ∃ s1, exec s c = .done s1 := by
      obtain ⟨h1, h2⟩ := hp c (by simp)
      cases c with
      | make x l => cases l <;> first | exact ⟨_, rfl⟩ | exact absurd trivial h2
      | copy x y => exact ⟨_, rfl⟩
      | swap x y => exact ⟨_, rfl⟩
      | mod1 o x =>
        cases o with
        | times n =>
          unfold exec modify1 times
          simp only
          rw [timesLoop_temp]
          exact ⟨_, rfl⟩
        | _ => first | exact ⟨_, rfl⟩ | exact absurd trivial h2
      | val1 o x y =>
        cases o with
        | times n =>
          unfold exec value1
          simp only
          rw [timesLoop_temp]
          exact ⟨_, rfl⟩
        | _ => first | exact ⟨_, rfl⟩ | exact absurd trivial h2
      | mod2 o x y =>
        by_cases hxy : y = x
        · subst hxy
          cases o with
          | both => exact absurd trivial h2
          | _ => exact absurd rfl h1
        · unfold exec
          simp only
          rw [modify2_eq (by simpa using hxy)]
          cases o with
          | both => exact absurd trivial h2
          | _ => exact ⟨_, rfl⟩
      | val2 o x y z =>
        unfold exec value2
        simp only
        rw [modify2_eq (by simp)]
        cases o with
        | both => exact absurd trivial h2
        | _ => exact ⟨_, rfl⟩
    obtain ⟨s1, h1⟩ := one
    unfold run
    rw [h1]
    exact ih (fun d hd => hp d (by simp [hd])) s1

/-- `x += x` leaves its table, for every automaton ... -/
theorem C66_self_append_is_undefined {s : Store} {x : Nat} (h : InBounds (s (.var x))) : exec s (.mod2 .cat x x) = .outside := by
  unfold exec modify2 FsmMem.add
  simp only
  rw [import_self (by have := h.1; omega)]
  rfl

/-- ... and so does `x |= x`. -/
theorem C66_self_union_is_undefined {s : Store} {x : Nat} (h : InBounds (s (.var x))) : exec s (.mod2 .alt x x) = .outside := by
  unfold exec modify2 FsmMem.or
  simp only
  rw [import_self (by have := h.1; omega)]
  rfl

/-- What one writes instead: `x = x + x`, `x = x | x`, `x &= x`, `x *= 2`. -/
theorem C66_self_by_value {E : Nat → Expr} {s s' : Store} (h : All s E) {x : Nat} (ok : (E x).Ok) (w : List Nat) :
    (exec s (.val2 .alt x x x) = .done s' → (w ∈ (s' (.var x)).Lang ↔ w ∈ (E x).den)) ∧
    (exec s (.mod2 .both x x) = .done s' → (w ∈ (s' (.var x)).Lang ↔ w ∈ (E x).den)) ∧
    ((E x).mayStartFinal = false → exec s (.val2 .cat x x x) = .done s' → (w ∈ (s' (.var x)).Lang ↔ ∃ u ∈ (E x).den, ∃ v ∈ (E x).den, u ++ v = w)) ∧
    ((E x).mayStartFinal = false → exec s (.mod1 (.times 2) x) = .done s' → (w ∈ (s' (.var x)).Lang ↔ ∃ u ∈ (E x).den, ∃ v ∈ (E x).den, u ++ v = w)) := by
  refine ⟨fun hs => ?_, fun hs => ?_, fun hm hs => ?_, fun hm hs => ?_⟩
  · have := (exec_spec h _ (by exact id)).2 s' hs x
    simp only [Stmt.effect, Function.update_self] at this
    rw [(this ⟨ok, ok⟩).2.1]
    exact ⟨fun h => h.elim id id, .inl⟩
  · have := (exec_spec h _ (by exact id)).2 s' hs x
    simp only [Stmt.effect, Function.update_self] at this
    rw [(this ⟨ok, ok⟩).2.1]
    exact ⟨fun h => h.1, fun h => ⟨h, h⟩⟩
  · have := (exec_spec h _ (by exact id)).2 s' hs x
    simp only [Stmt.effect, Function.update_self] at this
    rw [(this ⟨ok, ok, hm⟩).2.1]
    exact Language.mem_mul
  · have := (exec_spec h _ (by exact id)).2 s' hs x
    simp only [Stmt.effect, Function.update_self] at this
    rw [(this ⟨ok, hm⟩).2.1]
    change w ∈ (E x).den ^ 2 ↔ _
    rw [pow_two]
    exact Language.mem_mul

/-- With `m_sparsed` set and no letter classes, `Connected` asks about the byte 0, whatever letter it is given. -/
theorem connected_misled {g : Fsm} (hs : g.sparsed = true) (hr : g.Raw) (q p : Nat) {c : Nat} (hc : IsLetter c) :
    g.connected q p c = true ↔ g.Edge q 0 p := by
  have he : g.Edge q 0 p ↔ p ∈ g.dst q 0 := by
    unfold Fsm.Edge
    rw [Fsm.eff_eq, Fsm.key, if_neg (by decide), hr]
    rfl
  rw [he]
  unfold Fsm.connected Fsm.destinations Fsm.translate
  rw [decide_eq_true_iff]
  simp only [hs]
  rw [if_neg (by simpa [Epsilon] using hc.2)]
  have : g.letters.representative c = 0 := by rw [hr]; rfl
  rw [this]

/-- `Swap` forgets `m_sparsed`: if one automaton has been determined and the other has not, then afterwards `Connected` of the one that has not
asks about the byte 0, whatever letter it is given. -/
theorem C66_swap_misleads_observers {s s' : Store} {x y : Nat} (hxy : x ≠ y) (hs : (s (.var x)).sparsed = true) (hr : (s (.var y)).Raw)
    (h : exec s (.swap x y) = .done s') (q p c : Nat) (hc : IsLetter c) :
    (s' (.var x)).connected q p c = true ↔ (s' (.var x)).Edge q 0 p := by
  cases h
  unfold FsmMem.swap
  simp only
  rw [put_other _ (by simpa using hxy), put_same]
  exact connected_misled (by exact hs) (by exact hr) q p hc

/-- `Import` unpacks the letters and forgets `m_sparsed` as well: so it is after `+=` on a determined automaton ... -/
theorem C66_append_misleads_observers {f g : Fsm} (hs : f.sparsed = true) (h : f.WF) (hc : f.Coh) (h2 : g.WF) (hc2 : g.Coh)
    (q p c : Nat) (hl : IsLetter c) : (f.concat g).connected q p c = true ↔ (f.concat g).Edge q 0 p := by
  refine connected_misled ?_ (Fsm.concat_spec h hc h2 hc2).2.2.1 q p hl
  have fin : ∀ (l : List Nat) (k : Fsm), (l.foldl (fun h q => h.setFinal (q + f.size) true) k).sparsed = k.sparsed := by
    intro l
    induction l with
    | nil => intro k; rfl
    | cons a l ih => intro k; rw [List.foldl_cons, ih]; rfl
  have con : ∀ (l : List (Nat × Nat)) (k : Fsm), (l.foldl (fun h e => h.connectFinal e.2 e.1) k).sparsed = k.sparsed := by
    intro l
    induction l with
    | nil => intro k; rfl
    | cons a l ih => intro k; rw [List.foldl_cons, ih, Fsm.connectFinal_sparsed]
  unfold Fsm.concat
  simp only [Fsm.clearHints, fin, Fsm.clearFinal, con]
  exact hs

/-- Determined automata have the flag. -/
theorem canonize_sparsed {f g : Fsm} (h : f.Good) (hd : f.determined = false) {m : Nat} (hg : f.canonize m = some g) : g.sparsed = true := by
  unfold Fsm.canonize at hg
  rw [if_neg (by simp [hd])] at hg
  simp only at hg
  split at hg
  · rename_i hr
    have := ((Fsm.determine_spec h.wf hd m).1 hr).2.2.2.2.2.1
    cases hg
    unfold Fsm.minimize
    split
    · exact this
    · exact this
  · cases hg

/-- non-vacuity: `a = "c"; b = "ab"; b.Canonize(8); b.Swap(a)`: now `b` accepts `c`, but `b.Connected(0, 1, 'c')` is false. -/
example : ∃ s, run [.make 0 (.lit [99]), .make 1 (.lit [97, 98]), .mod1 (.canonize 8) 1, .swap 1 0] start = .done s ∧
    [99] ∈ (s (.var 1)).Lang ∧ (s (.var 1)).connected 0 1 99 = false := by
  have hw : IsWord [97, 98] := by unfold IsWord; decide
  have hg := Fsm.appendStr_good Fsm.Good.init Fsm.init_raw hw
  have hd : (Fsm.init.appendStr [97, 98]).determined = false := rfl
  have hdet := C16_determine_succeeds (f := Fsm.init.appendStr [97, 98]) (maxSize := 8) hg.wf (by simp [Fsm.appendStr, Fsm.appendChar, Fsm.clearFinal, Fsm.setFinal, Fsm.init])
  obtain ⟨g, hc⟩ : ∃ g, (Fsm.init.appendStr [97, 98]).canonize 8 = some g :=
    ⟨_, by rw [Fsm.canonize, if_neg (by simp [hd])]; simp only; rw [if_pos hdet]⟩
  let s1 : Store := put (put (put start (.var 0) (Fsm.init.appendStr [99])) (.var 1) (Fsm.init.appendStr [97, 98])) (.var 1) g
  have hrun : run [.make 0 (.lit [99]), .make 1 (.lit [97, 98]), .mod1 (.canonize 8) 1, .swap 1 0] start = exec s1 (.swap 1 0) := by
    simp only [run, exec, FsmMem.leaf, Ran.ofOption, Ran.bind, modify1, put_same, hc]
    rfl
  refine ⟨_, hrun, ?_, ?_⟩
  · have : (swap (.var 1) (.var 0) s1 (.var 1)) = { Fsm.init.appendStr [99] with sparsed := g.sparsed } := rfl
    rw [this]
    exact (C02_literal_automaton (s := [99]) (by unfold IsWord; decide) [99]).2 rfl
  · rw [Bool.eq_false_iff]
    intro hcon
    have h0 := (C66_swap_misleads_observers (s := s1) (x := 1) (y := 0) (by decide) (by exact canonize_sparsed hg hd hc) (by rfl) rfl 0 1 99
      (by unfold IsLetter; decide)).1 hcon
    have : (swap (.var 1) (.var 0) s1 (.var 1)).Edge 0 0 1 ↔ (Fsm.init.appendStr [99]).Edge 0 0 1 := Iff.rfl
    rw [this] at h0
    revert h0
    simp only [Fsm.appendStr, List.foldl_cons, List.foldl_nil, Fsm.appendChar_edge Fsm.WF.init, Fsm.init_edge, Fsm.key, false_or]
    rintro ⟨-, -, h⟩
    exact absurd h (by decide)

/-- non-vacuity: `a = "ab"; b = "c"; b |= a; a = a + a; a *= 2; b.Swap(a); c = a + b` -/
def fsmDemo : List Stmt :=
  [.make 0 (.lit [97, 98]), .make 1 (.lit [99]), .mod2 .alt 1 0, .val2 .cat 0 0 0, .mod1 (.times 2) 0, .swap 1 0, .val2 .cat 2 0 1]

example : (∀ c ∈ fsmDemo, ¬ c.selfImport ∧ ¬ Stmt.mayThrow c) ∧ (effects fsmDemo 2).Ok ∧
    ∃ s, run fsmDemo start = .done s ∧ [99, 97, 98, 97, 98, 97, 98, 97, 98] ∈ (s (.var 2)).Lang := by
  have h1 : ∀ c ∈ fsmDemo, ¬ c.selfImport ∧ ¬ Stmt.mayThrow c := by
    intro c hc
    simp only [fsmDemo, List.mem_cons, List.not_mem_nil, or_false] at hc
    rcases hc with rfl | rfl | rfl | rfl | rfl | rfl | rfl <;> simp [Stmt.selfImport, Stmt.mayThrow]
  have he : effects fsmDemo 2 = .cat (.alt (.lit [99]) (.lit [97, 98])) (.pow (.cat (.lit [97, 98]) (.lit [97, 98])) 2) := by
    simp [effects, fsmDemo, Stmt.effect, Leaf.expr, BinOp.expr, UnOp.expr, Function.update]
  have h2 : (effects fsmDemo 2).Ok := by
    rw [he]; simp only [Expr.Ok, Expr.mayStartFinal, IsWord]; decide
  refine ⟨h1, h2, ?_⟩
  obtain ⟨s, hs⟩ := C66_completes h1 start
  refine ⟨s, hs, ?_⟩
  rw [C66_programs_partial (fun c hc => (h1 c hc).1) hs 2 h2, he]
  refine Language.mem_mul.2 ⟨[99], .inl rfl, [97, 98, 97, 98, 97, 98, 97, 98], ?_, rfl⟩
  change _ ∈ (_ : Language Nat) ^ 2
  rw [pow_two]
  refine Language.mem_mul.2 ⟨[97, 98, 97, 98], ?_, [97, 98, 97, 98], ?_, rfl⟩ <;>
    exact Language.mem_mul.2 ⟨[97, 98], rfl, [97, 98], rfl, rfl⟩

/-- non-vacuity of the defects: at the beginning of any program. -/
example : exec start (.mod2 .cat 0 0) = .outside := C66_self_append_is_undefined (C21_good_in_bounds Fsm.Good.init)

end Props
end Pire
