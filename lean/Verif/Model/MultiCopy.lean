import Verif.Model.Multi

/-!
# Copying scanners, with or without a change of the relocation strategy — pire/scanners/multi.h:196-221, 402-444
-/

namespace Pire
namespace Multi

/-- `SetMask(i, other.Mask(i))` for all masks and `Common = other.Common`, multi.h:746-754 and 834-839 (assignments in the
order of the code). -/
def headerCells (P P' : Policy) (s : Multi) (st : Nat) : List (Cell × Nat) :=
  (Cell.flags st, s.get P' (.flags st)) ::
  (List.range P.masks).flatMap fun i => (List.range 4).map fun j => (Cell.mask st i j, s.get P' (.mask st i 0))

/-- The assignments of `DeepCopy` to the new block, in order, multi.h:419-443: letter table, `memcpy` of the final table and of
the final index, rows. `d` supplies `IndexToState` of the new scanner. -/
def copyCells (P P' : Policy) (s d : Multi) : List (Cell × Nat) :=
  ((List.range MaxChar).map fun c => (Cell.letter c, s.get P' (.letter c) + 2 ^ 64 - P'.headerSize + P.headerSize)) ++
  ((List.range d.m.finalTableSize).map fun i => (Cell.final i, s.get P' (.final i))) ++
  ((List.range d.m.statesCount).map fun i => (Cell.finalIndex i, s.get P' (.finalIndex i))) ++
  (List.range d.m.statesCount).flatMap fun st =>
    headerCells P P' s st ++
    (List.range d.m.lettersCount).map fun l =>
      (Cell.slot st (l + P.headerSize),
        P.reloc.diff (d.indexToState P st)
          (d.indexToState P (s.stateIndex P' (P'.reloc.go (s.indexToState P' st) (s.get P' (.slot st (l + P'.headerSize)))))))

/-- `DeepCopy`, multi.h:403-445; `base` is where the new block gets allocated. (`m.initial` is set before the tables are
filled, not in the middle: nothing in between depends on it.) -/
def deepCopy (P P' : Policy) (base : Nat) (s : Multi) : Multi :=
  let d : Multi := {
    m := { s.m with relocationSignature := P.reloc.signature, shortcuttingSignature := P.shortSignature }
    base := base
    mem := fun _ => 0
    empty := false }
  let d := { d with m := { d.m with initial := d.indexToState P (s.stateIndex P' s.m.initial) } }
  (copyCells P P' s d).foldl (fun d x => d.set P x.1 x.2) d

/-- The copy constructor, multi.h:196-206: `owned` = `m_buffer` is not null; otherwise (empty or mmap()-ed) `Alias`. -/
def copyCtor (P : Policy) (owned : Bool) (base : Nat) (s : Multi) : Multi := if owned then deepCopy P P base s else s

/-- The constructor from the other relocation strategy, multi.h:214-221; `null` is the static empty scanner. -/
def convert (P P' : Policy) (null : Multi) (base : Nat) (s : Multi) : Multi := if s.empty then null else deepCopy P P' base s

end Multi
end Pire
