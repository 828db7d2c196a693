import Verif.Model.SlowLifetime

/-!
# Slow scanner variables are values (C64)

What a program means when variables are plain values, and what it has to respect.
-/

namespace Pire
namespace SlowLife
open Capture

/-- What a variable holds: a scanner that has been built or mapped, or the empty scanner of the default constructor, or a copy of an empty one, which has lost its jumps
(a defect: `C37_slow_copy_of_default_is_broken`). -/
inductive Held
  | scanner (x : SlowCap)
  | empty (needActions : Bool)
  | broken (needActions : Bool)

/-- The scanner somebody who uses the variable sees. -/
def Held.seen : Held → SlowCap
  | .scanner x => x
  | .empty n => { SlowCap.default with needActions := n }
  | .broken n => { SlowCap.default with needActions := n, base := { SlowCap.default.base with jumps := .null } }

/-- What a copy holds. -/
def Held.copied : Held → Held
  | .scanner x => .scanner x
  | .empty n => .broken n
  | .broken n => .broken n

/-- Operations when variables are plain values. -/
def heldStep (τ : Nat → Option Held) : Op → Nat → Option Held
  | .default v n => Function.update τ v (some (.empty n))
  | .make v x _ _ => Function.update τ v (some (.scanner x))
  | .attach v x _ _ _ _ _ => Function.update τ v (some (.scanner x))
  | .copy v u _ _ => Function.update τ v ((τ u).map Held.copied)
  | .swap v u => Function.update (Function.update τ v (τ u)) u (τ v)
  | .destroy v => Function.update τ v none
  | .map _ _ => τ
  | .unmap _ => τ

/-- What the variables hold after a program; there were none in the beginning. -/
def held (ops : List Op) : Nat → Option Held := ops.foldl heldStep fun _ => none

/-- There is nothing at the address. -/
def World.Free (w : World) (a : Nat) : Prop := w.heap a = none ∧ w.mapped a = none

/-- A scanner as the constructors and `Load` leave it: tables of its own, of the lengths that the fields tell. -/
structure Built (x : SlowCap) : Prop where
  jumps : x.base.jumps = .vecs x.base.vec
  filled : x.base.vec ≠ []
  letters : x.base.letters.length = MaxChar
  finals : x.base.finals.length = x.base.statesCount
  nonempty : x.base.empty = false
  actions : x.actions = none

/-- A scanner whose tables are in mapped arrays. -/
structure Mapped (w : World) (x : SlowCap) (l f p j : Nat) (a : Option Nat) : Prop where
  letters : w.mapped l = some (.nums x.base.letters)
  finals : w.mapped f = some (.bools x.base.finals)
  jumps : ∃ ps js, x.base.jumps = .flat ps js ∧ w.mapped p = some (.nums ps) ∧ w.mapped j = some (.nums js)
  actions : match x.actions, a with
    | none, none => True
    | some as, some a => w.mapped a = some (.nums as)
    | _, _ => False
  vec : x.base.vec = []
  actionsVec : x.actionsVec = []
  nonempty : x.base.empty = false

/-- The arrays an object refers to. -/
def Obj.refs (o : Obj) : List Nat := [o.finals, o.letters] ++ o.jumps.toList ++ o.jumpPos.toList ++ o.actions.toList

/-- What a program must respect: variables are constructed once, used and destroyed while they exist; `malloc` gives addresses where nothing is; mapped arrays that
variables refer to stay mapped. -/
def Legal (w : World) : Op → Prop
  | .default v _ => w.vars v = none
  | .make v x a b => w.vars v = none ∧ w.Free a ∧ w.Free b ∧ a ≠ b ∧ Built x
  | .attach v x l f p j a => w.vars v = none ∧ Mapped w x l f p j a
  | .copy v u a b => w.vars v = none ∧ ∃ o, w.vars u = some o ∧ (o.vec ≠ [] → w.Free a ∧ w.Free b ∧ a ≠ b)
  | .swap v u => (w.vars v).isSome ∧ (w.vars u).isSome
  | .destroy v => (w.vars v).isSome
  | .map a _ => w.Free a
  | .unmap a => ∀ v o, w.vars v = some o → a ∉ o.refs

/-- All operations of a program are legal when they are done. -/
def LegalRun : World → List Op → Prop
  | _, [] => True
  | w, op :: ops => Legal w op ∧ ∀ w', step w op = some w' → LegalRun w' ops

/-- The beginning: no variables, nothing mapped, the static empty scanner has been built, slow.h:427-431. -/
structure Start (w : World) : Prop where
  vars : ∀ v, w.vars v = none
  mapped : ∀ a, w.mapped a = none
  letters : w.heap w.static.letters = some (.nums Slow.null.letters)
  finals : w.heap w.static.finals = some (.bools Slow.null.finals)
  heap : ∀ a, (w.heap a).isSome → a = w.static.letters ∨ a = w.static.finals
  vec : w.static.vec = Slow.null.vec
  vecptr : w.static.vecptr = .static
  jumps : w.static.jumps = none
  jumpPos : w.static.jumpPos = none
  actions : w.static.actions = none
  counts : w.static.statesCount = Slow.null.statesCount ∧ w.static.lettersCount = Slow.null.lettersCount ∧ w.static.start = Slow.null.start

end SlowLife
end Pire
