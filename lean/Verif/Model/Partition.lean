import Verif.Model.Basic

/-!
# `Partition<Char, Eq>` — pire/partition.h
-/

namespace Pire

/-- One entry of `Partition::m_set`: the key (representative), the class index and the members,
pire/partition.h:40 (`TMap<T, ypair<size_t, TVector<T>>>`). -/
structure PClass where
  rep : Nat
  idx : Nat
  members : List Nat
deriving DecidableEq, Repr

/-- `Partition`, pire/partition.h:37-47 and 143-147. `set` lists the map entries in key order; the stored
equivalence `m_eq` is passed explicitly to `append` (it is only used there). -/
structure Partition where
  set : List PClass
  inv : Nat → Option Nat
  maxidx : Nat

namespace Partition

/-- The constructor, pire/partition.h:43-47. -/
def empty : Partition := ⟨[], fun _ => none, 0⟩

/-- `std::map::insert` of a fresh key into the sorted entry list. -/
def insertSorted (e : PClass) : List PClass → List PClass
  | [] => [e]
  | x :: xs => if e.rep < x.rep then e :: x :: xs else if e.rep = x.rep then x :: xs else x :: insertSorted e xs

/-- The search loop of `DoAppend`, pire/partition.h:151-158: push `t` to the first class whose representative is
equivalent to it. Returns the new entry list and the representative, or `none` when no class fits. -/
def pushTo (eq : Nat → Nat → Bool) (t : Nat) : List PClass → Option (List PClass × Nat)
  | [] => none
  | x :: xs =>
    if eq x.rep t then some ({ x with members := x.members ++ [t] } :: xs, x.rep)
    else (pushTo eq t xs).map fun p => (x :: p.1, p.2)

/-- `Append`/`DoAppend`, pire/partition.h:50-52 and 149-166. -/
def append (p : Partition) (eq : Nat → Nat → Bool) (t : Nat) : Partition :=
  match pushTo eq t p.set with
  | some (s, r) => { p with set := s, inv := Function.update p.inv t (some r) }
  | none => { set := insertSorted ⟨t, p.maxidx, [t]⟩ p.set,
              inv := Function.update p.inv t (some t),
              maxidx := p.maxidx + 1 }

/-- `Size`, pire/partition.h:68-70. -/
def size (p : Partition) : Nat := p.set.length

/-- `Representative`, pire/partition.h:78-85. `DefaultValue<Char>()` is 0. -/
def representative (p : Partition) (t : Nat) : Nat := (p.inv t).getD 0

/-- `Contains`, pire/partition.h:87-90. -/
def contains (p : Partition) (t : Nat) : Bool := (p.inv t).isSome

/-- The entry stored under key `r` (`m_set.find`). -/
def find (p : Partition) (r : Nat) : Option PClass := p.set.find? (fun e => e.rep == r)

/-- `Index`, pire/partition.h:95-103; `none` = throws `Error`. -/
def index (p : Partition) (t : Nat) : Option Nat := do
  let r ← p.inv t
  let e ← p.find r
  return e.idx

/-- `Klass`, pire/partition.h:106-114; `none` = throws `Error`. -/
def klass (p : Partition) (t : Nat) : Option (List Nat) := do
  let r ← p.inv t
  let e ← p.find r
  return e.members

/-- Not in the code: the letter whose transitions describe letter `c`, i.e. the representative when `c` is
classified and `c` itself otherwise. Used to define the language of a packed automaton. -/
def repOr (p : Partition) (c : Nat) : Nat := (p.inv c).getD c

end Partition
end Pire
