import Verif.Model.Lifetime

/-!
# Scanner variables are values (C62)

What a program with scanner variables means: every variable has a value, nothing else matters. And what such a program has to respect.
-/

namespace Pire
namespace Life

variable {α V : Type}

/-- Operations on values. `e` is the value of the empty scanner. -/
def valueStep (e : V) (σ : Nat → Option V) : Op α V → Nat → Option V
  | .default v => Function.update σ v (some e)
  | .make v _ _ val => Function.update σ v (some val)
  | .attach v _ val => Function.update σ v (some val)
  | .copy v u _ => Function.update σ v (σ u)
  | .swap v u => Function.update (Function.update σ v (σ u)) u (σ v)
  | .destroy v _ => Function.update σ v none
  | .map _ _ _ => σ
  | .unmap _ _ _ => σ

/-- Values after a program, no variables in the beginning. -/
def values (e : V) (ops : List (Op α V)) : Nat → Option V := ops.foldl (valueStep e) fun _ => none

/-- Two blocks have no byte in common. -/
def Disjoint (b c : Nat × Nat) : Prop := b.1 + b.2 ≤ c.1 ∨ c.1 + c.2 ≤ b.1

/-- What is known about a block that has just been allocated or mapped. -/
structure Fresh (w : World α) (a n : Nat) : Prop where
  pos : 0 < a
  nonzero : 0 < n
  align : a % 8 = 0
  space : a + n ≤ 2 ^ 64
  apart : ∀ b ∈ w.blocks, Disjoint b (a, n)

/-- What a program must respect: variables are constructed once, used and destroyed while they exist; the allocator gives fresh memory; what is constructed with a block of
its own is laid out as the constructors do it (`built`) and means what it is said to mean; tables in mapped memory are mapped as long as variables refer to them. -/
def Legal (K : Kind α) (built : α → Prop) (means : α → V → Prop) (w : World α) : Op α V → Prop
  | .default v => w.vars v = none
  | .make v x n val => w.vars v = none ∧ Fresh w (K.base x) n ∧ K.size x ≤ n ∧ built x ∧ means x val
  | .attach v x val => w.vars v = none ∧ (∃ b ∈ w.mapped, b.1 ≤ K.base x ∧ K.base x + K.size x ≤ b.1 + b.2) ∧ means (K.withMem w.mem x) val
  | .copy v u a => w.vars v = none ∧ ∃ y, w.vars u = some y ∧ (y.buffer.isSome → Fresh w a (K.room y.obj))
  | .swap v u => (w.vars v).isSome ∧ (w.vars u).isSome
  | .destroy v _ => (w.vars v).isSome
  | .map a n _ => Fresh w a n
  | .unmap a n _ => (a, n) ∈ w.mapped ∧ ∀ v y, w.vars v = some y → Disjoint (K.base y.obj, K.size y.obj) (a, n)

/-- All operations of a program are legal when they are done. -/
def LegalRun (K : Kind α) (built : α → Prop) (means : α → V → Prop) : World α → List (Op α V) → Prop
  | _, [] => True
  | w, op :: ops => Legal K built means w op ∧ ∀ w', step K w op = some w' → LegalRun K built means w' ops

/-- The beginning of a program: no variables, nothing allocated or mapped, the empty scanner has been built in its static block. -/
structure Start (K : Kind α) (w : World α) : Prop where
  vars : ∀ v, w.vars v = none
  owned : w.owned = []
  mapped : w.mapped = []
  static : w.static.1 ≤ K.base K.null ∧ K.base K.null + K.size K.null ≤ w.static.1 + w.static.2
  content : ∀ i, K.base K.null ≤ i → i < K.base K.null + K.size K.null → w.mem i = K.mem K.null i

/-- What somebody who uses the variable sees: its fields over the common memory. -/
def World.view (K : Kind α) (w : World α) (v : Nat) : Option α := (w.vars v).map fun y => K.withMem w.mem y.obj

end Life
end Pire
