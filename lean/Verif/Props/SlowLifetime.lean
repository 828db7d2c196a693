import Verif.Proofs.SlowLifetime
import Verif.Props.CaptureIo
import Verif.Props.EasyCopy

/-!
# Slow scanner variables are values: property C64

As C62, for `SlowScanner` and `SlowCapturingScanner`, which share memory in another way: letters and final states are in arrays of a pool, the jumps are in a vector that
is a member of the scanner, and a pointer to a vector may point into the scanner itself, so it has to be corrected when scanners are swapped. The theorems are about
every program (a list of operations, `SlowLife.Op`) that respects `LegalRun`; `held` is what variables hold when they are just values.
-/

namespace Pire
namespace Props

open SlowLife Capture

/-- The program never reads an array that has been freed and frees nothing twice; in the end every variable shows exactly the scanner that it should hold by its value: no
operation on one variable has changed another. What is still allocated belongs to existing variables or to the static empty scanner. -/
theorem C64_values {w : World} (hs : Start w) {ops : List Op} (hl : LegalRun w ops) :
    ∃ w', run w ops = some w' ∧
      (∀ v, w'.view v = (held ops v).map Held.seen) ∧
      (∀ v, w'.vars v = none ↔ held ops v = none) ∧
      (∀ a, (w'.heap a).isSome → a = w'.static.letters ∨ a = w'.static.finals ∨ ∃ v o, w'.vars v = some o ∧ a ∈ o.pool) := by
  obtain ⟨w', h1, h2⟩ := Inv.run (τ := fun _ => none) (start_inv hs) (fun _ _ h => by cases h) hl
  refine ⟨w', h1, h2.view, fun v => ⟨fun h => ?_, fun h => ?_⟩, h2.noleak⟩
  · have := h2.view v
    rw [view_none h] at this
    exact Option.map_eq_none_iff.1 this.symm
  · by_contra hn
    have := h2.valued v (Option.isSome_iff_ne_none.2 hn)
    unfold seens at this
    rw [show ops.foldl heldStep (fun _ => none) v = none from h] at this
    cases this

/-- The same for the languages of `SlowScanner`s: a variable that holds a scanner for `L`, however often it has been copied, assigned and swapped, recognises `L`; one that
holds the empty scanner accepts nothing. -/
theorem C64_language {w : World} (hs : Start w) {ops : List Op} (hl : LegalRun w ops) : ∃ w', run w ops = some w' ∧
    (∀ v x, held ops v = some (.scanner x) → ∃ s, w'.view v = some s ∧ ∀ L, Slow.Recognizes x.base L → Slow.Recognizes s.base L) ∧
    (∀ v n, held ops v = some (.empty n) → ∃ s, w'.view v = some s ∧ Slow.Recognizes s.base 0) := by
  obtain ⟨w', h1, h2, -⟩ := C64_values hs hl
  refine ⟨w', h1, fun v x hv => ⟨x, ?_, fun L h => h⟩, fun v n hv => ⟨_, by rw [h2 v, hv]; rfl, null_slow.2⟩⟩
  rw [h2 v, hv]
  rfl

/-- The same for `SlowCapturingScanner`s: they capture as the one that has been compiled. -/
theorem C64_capturing {w : World} (hs : Start w) {ops : List Op} (hl : LegalRun w ops) : ∃ w', run w ops = some w' ∧
    ∀ v f d, held ops v = some (.scanner (SlowCap.compile f d)) → ∃ s, w'.view v = some s ∧ (∀ t, s.run t = (slowCompile f d).run t) ∧
      ∀ st, s.getCapture st = (slowCompile f d).getCapture st := by
  obtain ⟨w', h1, h2, -⟩ := C64_values hs hl
  refine ⟨w', h1, fun v f d hv => ⟨_, by rw [h2 v, hv]; rfl, C61_compiled f d⟩⟩

/-- When no variable exists any more, nothing is allocated but the static empty scanner. -/
theorem C64_no_leak {w : World} (hs : Start w) {ops : List Op} (hl : LegalRun w ops) (hv : ∀ v, held ops v = none) :
    ∃ w', run w ops = some w' ∧ ∀ a, (w'.heap a).isSome → a = w'.static.letters ∨ a = w'.static.finals := by
  obtain ⟨w', h1, h2, h3, h4⟩ := C64_values hs hl
  refine ⟨w', h1, fun a ha => ?_⟩
  rcases h4 a ha with e | e | ⟨v, o, e, -⟩
  · exact .inl e
  · exact .inr e
  · rw [(h3 v).2 (hv v)] at e
    cases e

/-! ### Assignment, Load, Mmap

They are programs themselves; here: after any legal program they are legal, and what they do to the values. -/

section
variable {w w1 : World} {ops : List Op}

theorem slow_isSome_ne {v t : Nat} (ht : w1.vars t = none) (hv : (w1.vars v).isSome) : v ≠ t := by
  rintro rfl
  rw [ht] at hv
  cases hv

theorem slow_swap_destroy {t v : Nat} {z : Obj} {w2 : World} (hvt : v ≠ t) (hv : (w1.vars v).isSome) (hz : w2.vars = Function.update w1.vars t (some z)) :
    LegalRun w2 [.swap t v, .destroy t] := by
  have hv2 : (w2.vars v).isSome := by rw [hz, Function.update_of_ne hvt]; exact hv
  refine ⟨⟨by rw [hz, Function.update_self]; rfl, hv2⟩, fun w3 h3 => ?_⟩
  refine ⟨?_, fun _ _ => trivial⟩
  obtain ⟨o, ho⟩ := Option.isSome_iff_exists.1 hv2
  have ht : w2.vars t = some z := by rw [hz, Function.update_self]
  have h3 : (w2.vars t).bind _ = some w3 := h3
  rw [ht, Option.bind_some, ho, Option.map_some] at h3
  cases h3
  show (Function.update (Function.update w2.vars t _) v _ t).isSome = true
  rw [Function.update_of_ne hvt.symm, Function.update_self]
  rfl

theorem slow_swap_destroy_held {τ : Nat → Option Held} {t v : Nat} {z : Option Held} (hvt : v ≠ t) (x : Nat) :
    [Op.swap t v, .destroy t].foldl heldStep (Function.update τ t z) x = if x = v then z else if x = t then none else τ x := by
  show Function.update (Function.update (Function.update (Function.update τ t z) t (Function.update τ t z v)) v (Function.update τ t z t)) t none x = _
  by_cases hx : x = t
  · subst hx
    rw [Function.update_self, if_neg hvt.symm, if_pos rfl]
  · rw [Function.update_of_ne hx]
    by_cases hxv : x = v
    · subst hxv
      rw [Function.update_self, Function.update_self, if_pos rfl]
    · rw [Function.update_of_ne hxv, Function.update_of_ne hx, Function.update_of_ne hx, if_neg hxv, if_neg hx]

/-- `v = u`: all other variables keep their values (`t`: the temporary). `v` and `u` may be the same variable. -/
theorem C64_assignment (hl : LegalRun w ops) (hr : run w ops = some w1) {t v u a b : Nat} {o : Obj} (ht : w1.vars t = none) (hv : (w1.vars v).isSome)
    (hu : w1.vars u = some o) (hf : o.vec ≠ [] → w1.Free a ∧ w1.Free b ∧ a ≠ b) :
    LegalRun w (ops ++ assign t v u a b) ∧
      ∀ x, held (ops ++ assign t v u a b) x = if x = v then (held ops u).map Held.copied else if x = t then none else held ops x := by
  have hvt := slow_isSome_ne ht hv
  refine ⟨legalRun_append.2 ⟨hl, fun w' hw => ?_⟩, fun x => ?_⟩
  · rw [hr] at hw
    cases hw
    refine ⟨⟨ht, o, hu, hf⟩, fun w2 h2 => ?_⟩
    have hvars : ∃ z, w2.vars = Function.update w1.vars t (some z) := by
      have h2 : (w1.vars u).bind _ = some w2 := h2
      rw [hu, Option.bind_some] at h2
      split at h2
      · cases h2
        exact ⟨_, rfl⟩
      · rw [Option.bind_eq_some_iff] at h2
        obtain ⟨l, -, h2⟩ := h2
        rw [Option.bind_eq_some_iff] at h2
        obtain ⟨f, -, h2⟩ := h2
        split at h2
        · cases h2
          exact ⟨_, rfl⟩
        · cases h2
    obtain ⟨z, hz⟩ := hvars
    exact slow_swap_destroy hvt hv hz
  · unfold held assign
    rw [List.foldl_append]
    exact slow_swap_destroy_held hvt x

/-- `Load` of a scanner that is not empty. -/
theorem C64_load (hl : LegalRun w ops) (hr : run w ops = some w1) {t v a b : Nat} {x : SlowCap} (ht : w1.vars t = none) (hv : (w1.vars v).isSome)
    (hf : w1.Free a ∧ w1.Free b ∧ a ≠ b) (hx : Built x) :
    LegalRun w (ops ++ loadInto t v x a b) ∧
      ∀ i, held (ops ++ loadInto t v x a b) i = if i = v then some (.scanner x) else if i = t then none else held ops i := by
  have hvt := slow_isSome_ne ht hv
  refine ⟨legalRun_append.2 ⟨hl, fun w' hw => ?_⟩, fun i => ?_⟩
  · rw [hr] at hw
    cases hw
    refine ⟨⟨ht, hf.1, hf.2.1, hf.2.2, hx⟩, fun w2 h2 => ?_⟩
    cases h2
    exact slow_swap_destroy hvt hv rfl
  · unfold held loadInto
    rw [List.foldl_append]
    exact slow_swap_destroy_held hvt i

/-- `Load` of an empty scanner. -/
theorem C64_load_empty (hl : LegalRun w ops) (hr : run w ops = some w1) {t v : Nat} (ht : w1.vars t = none) (hv : (w1.vars v).isSome) :
    LegalRun w (ops ++ loadEmpty t v) ∧
      ∀ i, held (ops ++ loadEmpty t v) i = if i = v then some (.empty false) else if i = t then none else held ops i := by
  have hvt := slow_isSome_ne ht hv
  refine ⟨legalRun_append.2 ⟨hl, fun w' hw => ?_⟩, fun i => ?_⟩
  · rw [hr] at hw
    cases hw
    refine ⟨ht, fun w2 h2 => ?_⟩
    cases h2
    exact slow_swap_destroy hvt hv rfl
  · unfold held loadEmpty
    rw [List.foldl_append]
    exact slow_swap_destroy_held hvt i

/-- `Mmap`. -/
theorem C64_mmap (hl : LegalRun w ops) (hr : run w ops = some w1) {t v l f p j : Nat} {a : Option Nat} {x : SlowCap} (ht : w1.vars t = none) (hv : (w1.vars v).isSome)
    (hx : Mapped w1 x l f p j a) :
    LegalRun w (ops ++ mmapInto t v x l f p j a) ∧
      ∀ i, held (ops ++ mmapInto t v x l f p j a) i = if i = v then some (.scanner x) else if i = t then none else held ops i := by
  have hvt := slow_isSome_ne ht hv
  refine ⟨legalRun_append.2 ⟨hl, fun w' hw => ?_⟩, fun i => ?_⟩
  · rw [hr] at hw
    cases hw
    refine ⟨⟨ht, hx⟩, fun w2 h2 => ?_⟩
    cases h2
    exact slow_swap_destroy hvt hv rfl
  · unfold held mmapInto
    rw [List.foldl_append]
    exact slow_swap_destroy_held hvt i

end

/-! ### The hypotheses are met -/

/-- What `SlowCapturingScanner(fsm, distance)` gives (and `Load` of what it saved, `C61_round_trip`). -/
theorem C64_capturing_built {f : Fsm} {d : Nat} (h : (f.withDistance d).WF) : Built (SlowCap.compile f d) := by
  refine ⟨rfl, List.ne_nil_of_length_pos (SlowCap.vec_pos h), Slow.letterTable_len _, ?_, rfl, rfl⟩
  show ((List.range _).map _).length = _
  rw [List.length_map, List.length_range]
  rfl

/-- What `SlowScanner(fsm)` gives (and `Load` of what it saved, `C33_slow_round_trip`). -/
theorem C64_slow_built {f : Fsm} (h : f.WF) (hs : f.size ≤ 2 ^ 32) : Built ⟨Slow.compile f, false, [], none⟩ := by
  have h1 : (Slow.compile f).vec ≠ [] := by
    rcases C37_slow_compiled_complete h hs with ⟨h1, -⟩ | ⟨h1, p, j, hx⟩
    · exact h1
    · cases hx
  refine ⟨rfl, h1, Slow.letterTable_len _, ?_, rfl, rfl⟩
  show ((List.range _).map _).length = _
  rw [List.length_map, List.length_range]
  rfl

/-- The beginning of a program. -/
def slowStart : World :=
  { heap := Function.update (Function.update (fun _ => none) 0 (some (.nums Slow.null.letters))) 1 (some (.bools Slow.null.finals))
    mapped := fun _ => none
    static := { statesCount := Slow.null.statesCount, lettersCount := Slow.null.lettersCount, start := Slow.null.start, finals := 1, letters := 0, jumps := none,
                actions := none, jumpPos := none, pool := [0, 1], vec := Slow.null.vec, vecptr := .static, needActions := false, actionsVec := [] }
    vars := fun _ => none }

theorem C64_start : Start slowStart := by
  refine ⟨fun _ => rfl, fun _ => rfl, rfl, rfl, fun a ha => ?_, rfl, rfl, rfl, rfl, rfl, rfl, rfl, rfl⟩
  by_contra hn
  rw [not_or] at hn
  unfold slowStart at ha hn
  dsimp only at ha hn
  rw [Function.update_of_ne hn.2, Function.update_of_ne hn.1] at ha
  cases ha

/-- A program: `SlowScanner a; SlowScanner b(fsm); a = b;` then `b` dies. -/
def slowProgram (x : SlowCap) : List Op := [.default 0 true, .make 1 x 10 11] ++ assign 9 0 1 12 13 ++ [.destroy 1]

/-- The hypotheses of `C64_values` and of `C64_assignment` are met: after the program `a` holds the scanner, `b` is gone. -/
theorem C64_program {x : SlowCap} (hx : Built x) : ∃ w', LegalRun slowStart (slowProgram x) ∧ run slowStart (slowProgram x) = some w' ∧
    w'.view 0 = some x ∧ w'.view 1 = none := by
  have hh : ∀ a, 2 ≤ a → slowStart.heap a = none := fun a ha => by
    unfold slowStart
    dsimp only
    rw [Function.update_of_ne (by omega), Function.update_of_ne (by omega)]
  have l1 : LegalRun slowStart [.default 0 true, .make 1 x 10 11] := by
    refine ⟨rfl, fun w1 h1 => ?_⟩
    cases h1
    exact ⟨⟨rfl, ⟨hh 10 (by omega), rfl⟩, ⟨hh 11 (by omega), rfl⟩, by decide, hx⟩, fun _ _ => trivial⟩
  obtain ⟨l2, e2⟩ := C64_assignment l1 rfl (t := 9) (v := 0) (u := 1) (a := 12) (b := 13) rfl rfl rfl (fun _ => ⟨⟨hh 12 (by omega), rfl⟩, ⟨hh 13 (by omega), rfl⟩, by decide⟩)
  obtain ⟨w2, r2, -, v2, -⟩ := C64_values C64_start l2
  have l3 : LegalRun slowStart (slowProgram x) := by
    refine legalRun_append.2 ⟨l2, fun w' hw => ⟨?_, fun _ _ => trivial⟩⟩
    rw [r2] at hw
    cases hw
    show (w2.vars 1).isSome = true
    rw [Option.isSome_iff_ne_none, ne_eq, v2, e2]
    intro h
    cases h
  obtain ⟨w3, r3, g3, -⟩ := C64_values C64_start l3
  have h3 : ∀ i, held (slowProgram x) i = Function.update (held ([.default 0 true, .make 1 x 10 11] ++ assign 9 0 1 12 13)) 1 none i := fun i => by
    unfold held slowProgram
    rw [List.foldl_append]
    rfl
  refine ⟨w3, l3, r3, ?_, ?_⟩
  · rw [g3, h3, Function.update_of_ne (by decide), e2]
    rfl
  · rw [g3, h3, Function.update_self]
    rfl

/-- In particular for the scanner that captures `x(a*)a*`. -/
example (lz : Bool) : ∃ f, Searches noOptions .latin1 (twoText lz) 1 twoTree f f.surround ∧ ∃ w', run slowStart (slowProgram (SlowCap.compile f.surround)) = some w' ∧
    w'.view 0 = some (SlowCap.compile f.surround) := by
  obtain ⟨f, h1, h2, -⟩ := C61_case lz
  obtain ⟨w', -, h3, h4, -⟩ := C64_program (C64_capturing_built h2)
  exact ⟨f, h1, w', h3, h4⟩

/-- A mapped scanner: its arrays get mapped, a variable is mapped to them, copied, and dies; the copy is still the scanner. When the copy has died too, the arrays may be
unmapped. -/
theorem C64_mapped_program {x : SlowCap} {ps js : List Nat} (hj : x.base.jumps = .flat ps js) (ha : x.actions = none) (hv : x.base.vec = []) (he : x.base.empty = false)
    (hn : x.actionsVec = []) : ∃ w', run slowStart
      [.map 10 (.nums x.base.letters), .map 11 (.bools x.base.finals), .map 12 (.nums ps), .map 13 (.nums js), .attach 1 x 10 11 12 13 none, .copy 2 1 0 0, .destroy 1] = some w' ∧
      w'.view 2 = some x ∧ ∀ a, ¬ Legal w' (.unmap 10) ∧ ∀ w'', step w' (.destroy 2) = some w'' → (10 ≤ a ∧ a ≤ 13) → Legal w'' (.unmap a) := by
  have hh : ∀ a, 2 ≤ a → slowStart.heap a = none := fun a ha => by
    unfold slowStart
    dsimp only
    rw [Function.update_of_ne (by omega), Function.update_of_ne (by omega)]
  have hl : LegalRun slowStart [.map 10 (.nums x.base.letters), .map 11 (.bools x.base.finals), .map 12 (.nums ps), .map 13 (.nums js), .attach 1 x 10 11 12 13 none,
      .copy 2 1 0 0, .destroy 1] := by
    refine ⟨⟨hh 10 (by omega), rfl⟩, fun w1 h1 => ?_⟩
    cases h1
    refine ⟨⟨hh 11 (by omega), rfl⟩, fun w1 h1 => ?_⟩
    cases h1
    refine ⟨⟨hh 12 (by omega), rfl⟩, fun w1 h1 => ?_⟩
    cases h1
    refine ⟨⟨hh 13 (by omega), rfl⟩, fun w1 h1 => ?_⟩
    cases h1
    refine ⟨⟨rfl, rfl, rfl, ⟨ps, js, hj, rfl, rfl⟩, by rw [ha]; trivial, hv, hn, he⟩, fun w1 h1 => ?_⟩
    cases h1
    refine ⟨⟨rfl, _, rfl, fun h => absurd rfl h⟩, fun w1 h1 => ?_⟩
    cases h1
    exact ⟨rfl, fun _ _ => trivial⟩
  obtain ⟨w', h1, h2, h3, -⟩ := C64_values C64_start hl
  refine ⟨w', h1, h2 2, fun a => ⟨fun h => ?_, fun w'' hw _ v o hv => ?_⟩⟩
  · cases h1
    exact h 2 _ rfl (List.mem_append_left _ (List.mem_append_left _ (List.mem_append_left _ (.tail _ (.head _)))))
  · cases h1
    cases hw
    exfalso
    by_cases h2 : v = 2
    · subst h2; cases hv
    by_cases h1 : v = 1
    · subst h1; cases hv
    have hv : Function.update (Function.update (Function.update (Function.update (fun _ => none) 1 _) 2 _) 1 none) 2 none v = some o := hv
    rw [Function.update_of_ne h2, Function.update_of_ne h1, Function.update_of_ne h2, Function.update_of_ne h1] at hv
    cases hv

end Props
end Pire
