import Mathlib.Data.Finset.Basic
import Mathlib.Data.Finset.Insert
import Mathlib.Data.Finset.Lattice.Basic

/-!
# `FileMmap` of the tools — tools/common/filemap.h (the part for POSIX)
-/

namespace Pire.Tools

/-- What the process has: open descriptors, and mappings (address and length). -/
structure Os where
  open_ : Finset Nat
  maps : Finset (Nat × Nat)
  deriving DecidableEq

/-- What the system answers: to `open` a descriptor, to `fstat` a size, to `mmap` an address; `none`: the call fails. -/
structure Answers where
  open_ : Option Nat
  size : Option Nat
  map : Option Nat

/-- The system keeps to POSIX: a descriptor is not one that is open already, a mapping is not at 0 and not where another one is, and `mmap` fails if the length is 0. -/
structure Answers.Posix (a : Answers) (os : Os) : Prop where
  fd : ∀ n, a.open_ = some n → n ∉ os.open_
  null : a.map ≠ some 0
  map : ∀ p, a.map = some p → ∀ l, (p, l) ∉ os.maps
  empty : a.size = some 0 → a.map = none

/-- The members, tools/common/filemap.h:78-80. -/
structure FileMmap where
  fd : Nat
  mmap : Nat
  len : Nat
  deriving DecidableEq

/-- `Close`, tools/common/filemap.h:67-76: the object afterwards and the system. `none`: something is closed or unmapped that is not there. -/
def FileMmap.close (f : FileMmap) (os : Os) : Option (FileMmap × Os) :=
  if f.mmap ≠ 0 ∧ (f.mmap, f.len) ∉ os.maps then none
  else if f.fd ≠ 0 ∧ f.fd ∉ os.open_ then none
  else some (⟨0, 0, 0⟩, ⟨if f.fd ≠ 0 then os.open_.erase f.fd else os.open_, if f.mmap ≠ 0 then os.maps.erase (f.mmap, f.len) else os.maps⟩)

/-- The constructor, tools/common/filemap.h:37-60: the object, or `none` if it throws, and the system. The outer `none`: see `close`. -/
def construct (a : Answers) (os : Os) : Option (Option FileMmap × Os) :=
  let f : FileMmap := ⟨0, 0, 0⟩
  match a.open_ with
  | none => (f.close os).map fun r => (none, r.2)
  | some n =>
    let os := { os with open_ := insert n os.open_ }
    let f := { f with fd := n }
    match a.size with
    | none => (f.close os).map fun r => (none, r.2)
    | some l =>
      let f := { f with len := l }
      match a.map with
      | none => (f.close os).map fun r => (none, r.2)
      | some p => some (some { f with mmap := p }, { os with maps := insert (p, l) os.maps })

/-- The destructor, tools/common/filemap.h:61. -/
def FileMmap.destroy (f : FileMmap) (os : Os) : Option Os := (f.close os).map (·.2)

/-- `Begin` and `End`, tools/common/filemap.h:63-64. -/
def FileMmap.range (f : FileMmap) : Nat × Nat := (f.mmap, f.mmap + f.len)

end Pire.Tools
