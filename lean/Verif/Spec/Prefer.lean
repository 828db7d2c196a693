import Verif.Spec.CapturePattern
import Mathlib.Data.Finset.Range

/-!
# Which match is preferred (C60)

A pattern that is a sequence of items, each a set of bytes repeated a number of times, matches the beginning of a text in a way that is described
by the numbers of repetitions.  A greedy item prefers more repetitions, a lazy one fewer; earlier items are more important than later ones.
Nothing here mentions the model of the code.
-/

namespace Pire.Spec

/-- A byte out of a set, at least `lo` and at most `hi` times. -/
structure Item where
  bytes : Finset Nat
  lo : Nat
  hi : Option Nat
  lazy : Bool

/-- The number of repetitions is allowed. -/
def Item.allows (it : Item) (n : Nat) : Prop := it.lo ≤ n ∧ ∀ h, it.hi = some h → n ≤ h

/-- The text begins with a match of the items, with these numbers of repetitions. -/
def Starts : List Item → List Nat → List Nat → Prop
  | [], [], _ => True
  | it :: is, n :: ns, v => it.allows n ∧ n ≤ v.length ∧ (∀ c ∈ v.take n, c ∈ it.bytes) ∧ Starts is ns (v.drop n)
  | _, _, _ => False

/-- The first list of numbers is preferred to the second. -/
def Better : List Item → List Nat → List Nat → Prop
  | it :: is, m :: ms, n :: ns => (if it.lazy then m < n else n < m) ∨ m = n ∧ Better is ms ns
  | _, _, _ => False

/-! The items of a pattern: letters, `.`, these with `*`, `+`, `?`, `*?`, `+?`, `??`, and groups that are not repeated.  The list says for every
repetition whether it is lazy.  `none`: the pattern is something else, or has a class without letters or an empty group. -/

/-- The bytes that a letter, a class of letters or `.` matches. -/
def Term.bytes : Term → Option (Finset Nat)
  | .letters cs false => if (cs.filter (· < 128)).Nonempty then some (cs.filter (· < 128)) else none
  | .dot => some (Finset.range 256)
  | _ => none

mutual
def Alt.items : Alt → List Bool → Option (List Item)
  | .one c, l => c.items l
  | .or _ _, _ => none
def Conj.items : Conj → List Bool → Option (List Item)
  | .one n, l => n.items l
  | .and _ _, _ => none
def Neg.items : Neg → List Bool → Option (List Item)
  | .one c, l => c.items l
  | .not _, _ => none
def Cat.items : Cat → List Bool → Option (List Item)
  | .nil, _ => some []
  | .snoc c i, l => do
    let x ← c.items l
    let y ← i.items (l.drop c.counts)
    return x ++ y
def Iter.items : Iter → List Bool → Option (List Item)
  | .one t, l => t.items l
  | .rep t lo hi, l => do
    let bs ← t.bytes
    if lo = 0 ∧ hi = some 1 ∨ lo ≤ 1 ∧ hi = none then return [⟨bs, lo, hi, l.getD 0 false⟩] else none
def Term.items : Term → List Bool → Option (List Item)
  | .letters cs neg, _ => (Term.letters cs neg).bytes.map fun bs => [⟨bs, 1, some 1, false⟩]
  | .dot, _ => Term.dot.bytes.map fun bs => [⟨bs, 1, some 1, false⟩]
  | .bol, _ => none
  | .eol, _ => none
  | .group a, l => (a.items l).bind fun x => if x.isEmpty then none else some x
end

/-! The number of items. -/
mutual
def Alt.width : Alt → Nat
  | .one c => c.width
  | .or a c => a.width + c.width
def Conj.width : Conj → Nat
  | .one n => n.width
  | .and c n => c.width + n.width
def Neg.width : Neg → Nat
  | .one c => c.width
  | .not c => c.width
def Cat.width : Cat → Nat
  | .nil => 0
  | .snoc c i => c.width + i.width
def Iter.width : Iter → Nat
  | .one t => t.width
  | .rep t _ _ => t.width
def Term.width : Term → Nat
  | .letters _ _ => 1
  | .dot => 1
  | .bol => 0
  | .eol => 0
  | .group a => a.width
end

/-! The number of items before the `k`-th group. -/
mutual
def Alt.before : Alt → Nat → Nat
  | .one c, k => c.before k
  | .or a c, k => if k ≤ a.groups then a.before k else a.width + c.before (k - a.groups)
def Conj.before : Conj → Nat → Nat
  | .one n, k => n.before k
  | .and c n, k => if k ≤ c.groups then c.before k else c.width + n.before (k - c.groups)
def Neg.before : Neg → Nat → Nat
  | .one c, k => c.before k
  | .not c, k => c.before k
def Cat.before : Cat → Nat → Nat
  | .nil, _ => 0
  | .snoc c i, k => if k ≤ c.groups then c.before k else c.width + i.before (k - c.groups)
def Iter.before : Iter → Nat → Nat
  | .one t, k => t.before k
  | .rep t _ _, k => t.before k
def Term.before : Term → Nat → Nat
  | .letters _ _, _ => 0
  | .dot, _ => 0
  | .bol, _ => 0
  | .eol, _ => 0
  | .group a, k => if k = 1 then 0 else a.before (k - 1)
end

end Pire.Spec
