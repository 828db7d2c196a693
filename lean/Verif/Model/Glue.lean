import Verif.Model.MultiCopy
import Verif.Model.Lookup

/-!
# `Scanner::Glue` — pire/glue.h:35-48 and 113-159, pire/scanners/multi.h:1005-1066 and 1092-1103
-/

namespace Pire
namespace Multi

/-- `Null()`, multi.h:338-344: the compiled `MakeFalse()`, at some static address; `Empty()` compares with its address
(`compile` succeeds on it). -/
def null (P : Policy) (base : Nat) : Option Multi := (compile P base Fsm.makeFalse).map fun s => { s with empty := true }

/-- `LettersEquality`, pire/glue.h:35-48. -/
def lettersEq (P : Policy) (a b : Multi) (c d : Nat) : Bool :=
  a.get P (.letter c) == a.get P (.letter d) && b.get P (.letter c) == b.get P (.letter d)

/-- The new letters partition, the constructor of `ScannerGlueCommon`, pire/glue.h:119-128. -/
@[irreducible] def glueLetters (P : Policy) (a b : Multi) : Partition :=
  ((List.range MaxChar).filter (· ≠ Epsilon)).foldl (fun p c => p.append (lettersEq P a b) c) .empty

/-- `ScannerGlueCommon`: pire/glue.h:130-144. -/
def glueTask (P : Policy) (a b : Multi) : DTask (Nat × Nat) where
  letters := glueLetters P a b
  initial := (a.m.initial, b.m.initial)
  next := fun s c => (a.next P s.1 c, b.next P s.2 c)
  required := fun _ => true

/-- `Shift`, multi.h:1059-1065; the second component is `out - m_final`. -/
def shiftOut (P : Policy) (range : List Nat) (sh : Nat) (r : Multi × Nat) : Multi × Nat :=
  range.foldl (fun r x => (r.1.set P (.final r.2) (x + sh), r.2 + 1)) r

/-- The tag of a pair of states, multi.h:1039-1040. -/
def glueFlags (P : Policy) (a b : Multi) (st : Nat × Nat) : Nat :=
  (if (a.scn P).final st.1 || (b.scn P).final st.2 then 1 else 0) |||
  (if (a.scn P).dead st.1 && (b.scn P).dead st.2 then 2 else 0)

/-- The body of the loop of `AcceptStates`, multi.h:1033-1041. -/
def acceptState (P : Policy) (a b : Multi) (r : Multi × Nat) (x : (Nat × Nat) × Nat) : Multi × Nat :=
  let s := r.1.set P (.finalIndex x.2) r.2
  let r := shiftOut P (a.acceptedRegexps P x.1.1) 0 (s, r.2)
  let r := shiftOut P (b.acceptedRegexps P x.1.2) a.regexpsCount r
  let s := r.1.set P (.final r.2) EndIdx
  (s.setTag P x.2 (glueFlags P a b x.1), r.2 + 1)

/-- `finalTableSize`, multi.h:1026-1028. -/
def glueFinals (P : Policy) (a b : Multi) (states : List (Nat × Nat)) : Nat :=
  (states.map fun i => (a.acceptedRegexps P i.1).length + (b.acceptedRegexps P i.2).length).sum

/-- `AcceptStates`, multi.h:1022-1042; the new scanner's block is at `base`. -/
def acceptStates (P : Policy) (base : Nat) (a b : Multi) (states : List (Nat × Nat)) : Multi :=
  let s := init P base states.length (glueLetters P a b) (glueFinals P a b states) 0 (a.regexpsCount + b.regexpsCount)
  (states.zipIdx.foldl (acceptState P a b) (s, 0)).1

/-- `AcceptStates`, the `Connect` calls (multi.h:1044-1050) and `Success` (1049-1053). -/
def glueBuild (P : Policy) (base : Nat) (a b : Multi) (states : List (Nat × Nat)) (conns : List (Nat × Nat × Nat)) : Multi :=
  (conns.foldl (fun s x => s.setJump P x.1 x.2.2 x.2.1) (acceptStates P base a b states)).buildShortcuts P

/-- The size of the lookup table, multi.h:1015. -/
def glueTableSize : Nat := 256 * 1024

/-- `Glue`, multi.h:1092-1103. `ownA`, `ownB` = the arguments own their memory (else they are empty or mmap()-ed); `null` is the
empty scanner; `base` and `base'` are where the scanner is built and where its copy, the result, is allocated. -/
def glue (P : Policy) (null : Multi) (ownA ownB : Bool) (base base' : Nat) (a b : Multi) (maxSize : Nat := 0) : DTask.Outcome Multi :=
  if a.empty then .ok (copyCtor P ownB base' b)
  else if b.empty then .ok (copyCtor P ownA base' a)
  else
    match (glueTask P a b).runT glueTableSize (if maxSize ≠ 0 then maxSize else 80000) with
    | .bad => .bad
    | .fail => .ok null
    | .ok (states, conns) => .ok (copyCtor P true base' (glueBuild P base a b states conns))

end Multi
end Pire
