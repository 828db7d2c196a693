import Verif.Model.CountLifetime
import Verif.Proofs.LifetimeKinds

/-!
# `NoGlueLimitCountingScanner` variables are values (C65)

What a program means when variables are plain values, and what it has to respect.
-/

namespace Pire
namespace CountLife
open Count Life

/-- What somebody who uses the variable sees. `none`: the variable does not exist, or its actions do not exist any more. -/
def World.view (nul : Loaded) (w : World) (v : Nat) : Option NoLimit :=
  (w.arrays.vars v).bind fun o => (w.tables.view (loadedKind nul) v).bind fun s =>
    match o.actions with
    | none => some ⟨s, none, o.compat⟩
    | some a => (w.arrays.look a).map fun l => ⟨s, some l, o.compat⟩

/-- Operations when variables are plain values. (`load` keeps the compatibility flag, `loadAdvanced` the actions: `C35_nolimit_compat_sticks`.) -/
def valueStep (nul : Loaded) (τ : Nat → Option NoLimit) : Op → Nat → Option NoLimit
  | .default v => Function.update τ v (some ⟨nul, none, false⟩)
  | .make v _ _ val acts => Function.update τ v (some ⟨val, acts.map (·.2), false⟩)
  | .attach v _ val acts compat => Function.update τ v (some ⟨val, acts.map (·.2), compat⟩)
  | .copy v u _ _ => Function.update τ v (τ u)
  | .swap v u => Function.update (Function.update τ v (τ u)) u (τ v)
  | .destroy v _ => Function.update τ v none
  | .load _ v _ _ val _ acts => Function.update τ v ((τ v).map fun x => { x with base := val, actions := acts.map (·.2) })
  | .loadAdvanced _ v _ _ val _ => Function.update τ v ((τ v).map fun x => { x with base := val, compat := true })
  | .map _ _ _ => τ
  | .unmap _ _ _ => τ
  | .mapActs _ _ => τ
  | .unmapActs _ => τ

/-- Values after a program, no variables in the beginning. -/
def values (nul : Loaded) (ops : List Op) : Nat → Option NoLimit := ops.foldl (valueStep nul) fun _ => none

/-- There is no array at the address. -/
def Arrays.Free (w : Arrays) (a : Nat) : Prop := w.heap a = none ∧ w.mapped a = none

/-- A new array of actions: where nothing is; its first number is its length (the assertion in count.h:479). -/
def Arrays.New (w : Arrays) : Option (Nat × List Nat) → Prop
  | none => True
  | some x => w.Free x.1 ∧ x.2.head? = some x.2.length

/-- What a program must respect concerning the actions: `new` gives addresses where nothing is, mapped arrays stay mapped while variables refer to them. That variables are
constructed once and used while they exist is required with the tables. -/
def Arrays.Legal (w : Arrays) : Op → Prop
  | .make _ _ _ _ acts => w.New acts
  | .attach _ _ _ acts _ => ∀ x, acts = some x → w.mapped x.1 = some x.2
  | .copy _ u _ b => ∀ o, w.vars u = some o → o.buffer.isSome → w.Free b
  | .load _ v _ _ _ _ acts => (w.vars v).isSome ∧ w.New acts
  | .loadAdvanced _ v _ _ _ _ => (w.vars v).isSome
  | .mapActs a _ => w.Free a
  | .unmapActs a => ∀ v o, w.vars v = some o → o.actions ≠ some a
  | _ => True

/-- What a program must respect. -/
def Legal (nul : Loaded) (w : World) (op : Op) : Prop :=
  Life.LegalRun (loadedKind nul) LoadedBuilt LoadedMeans w.tables op.tables ∧ w.arrays.Legal op

/-- All operations of a program are legal when they are done. -/
def LegalRun (nul : Loaded) : World → List Op → Prop
  | _, [] => True
  | w, op :: ops => Legal nul w op ∧ ∀ w', step nul w op = some w' → LegalRun nul w' ops

/-- The beginning: no variables, nothing allocated or mapped but the static empty scanner. -/
structure Start (nul : Loaded) (w : World) : Prop where
  tables : Life.Start (loadedKind nul) w.tables
  vars : ∀ v, w.arrays.vars v = none
  heap : ∀ a, w.arrays.heap a = none
  mapped : ∀ a, w.arrays.mapped a = none

/-- Two scanners nobody can tell apart. -/
structure Alike (s s' : NoLimit) : Prop where
  base : Loaded.Alike s.base s'.base
  reCount : s'.base.reCount = s.base.reCount
  actions : s'.actions = s.actions
  compat : s'.compat = s.compat

end CountLife
end Pire
